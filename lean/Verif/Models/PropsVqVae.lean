import Verif.Models.VqVae
import Verif.Models.PropsHific
import Mathlib.Data.Nat.ModEq
import Mathlib.Tactic.Ring
import Mathlib.Tactic.Linarith

/-!
C100: sizes of the VQ-VAE autoencoder.
-/

namespace Verif.Models.VqVae

/-! ### Specification -/

/-- Arguments that make sense: at least one level and one residual block at each, at least one channel. -/
structure Sensible (cfg : Config) : Prop where
  levels : cfg.chMult ≠ []
  blocks : 1 ≤ cfg.resBlocks
  ch : 1 ≤ cfg.ch
  mult : ∀ m ∈ cfg.chMult, 1 ≤ m

/-- The numbers of channels that the normalisation admits. -/
def Admits : Norm → ℕ → Prop
  | .group, c | .channelLast, c => 16 ∣ c
  | .channel, c => 2 ≤ c
  | .other, _ => False

/-- Every group normalisation has at least two values in each group: latents of `lh × lw` for `n` images. -/
def Enough (cfg : Config) (n lh lw : ℕ) : Prop :=
  cfg.norm = .channel ∨ 2 ≤ n * lh * lw ∨ 32 ≤ cfg.ch

/-- The quotient rounded up. -/
def ceilDiv (a b : ℕ) : ℕ := (a + b - 1) / b

/-! ### Layers -/

theorem conv_same {cin : ℕ} (cout : ℕ) {x : Shape} (hc : x.c = cin) (hh : 1 ≤ x.h) (hw : 1 ≤ x.w) :
    conv cin cout 3 1 1 x = .ok ⟨x.n, cout, x.h, x.w⟩ := by
  unfold conv
  rw [if_neg (by omega)]
  simp only [Nat.div_one]
  congr 2 <;> omega

theorem conv_one {cin : ℕ} (cout : ℕ) {x : Shape} (hc : x.c = cin) (hh : 1 ≤ x.h) (hw : 1 ≤ x.w) :
    conv cin cout 1 1 0 x = .ok ⟨x.n, cout, x.h, x.w⟩ := by
  unfold conv
  rw [if_neg (by omega)]
  simp only [Nat.div_one]
  congr 2 <;> omega

/-- A layer in the context of a network: sizes at least those of the latent, channels at least `ch`. -/
structure Room (nm : Norm) (ch n lh lw : ℕ) : Prop where
  n1 : 1 ≤ n
  h1 : 1 ≤ lh
  w1 : 1 ≤ lw
  admits : Admits nm ch
  ch1 : 1 ≤ ch
  enough : nm = .channel ∨ 2 ≤ n * lh * lw ∨ 32 ≤ ch

theorem keep_ok {nm : Norm} {ch n lh lw m : ℕ} (R : Room nm ch n lh lw) (hm : 1 ≤ m) {x : Shape}
    (hn : x.n = n) (hc : x.c = ch * m) (hh : lh ≤ x.h) (hw : lw ≤ x.w) :
    keep nm (ch * m) x = .ok x := by
  unfold keep
  rw [if_neg, if_pos hc]
  rintro ⟨hg, h1⟩
  subst hg
  obtain ⟨k, hk⟩ : 16 ∣ ch := R.admits
  have hk1 : 1 ≤ k := by have := R.ch1; omega
  have e : x.n * x.c / 16 = n * (k * m) := by
    rw [hn, hc, hk, show n * (16 * k * m) = 16 * (n * (k * m)) by ring, Nat.mul_div_cancel_left _ (by norm_num)]
  rw [e] at h1
  have hn1 := R.n1
  have hxh : x.h = 1 := Nat.eq_one_of_mul_eq_one_left (n := x.h) (m := n * (k * m)) (Nat.eq_one_of_mul_eq_one_right h1)
  have hxw : x.w = 1 := Nat.eq_one_of_mul_eq_one_left h1
  have hnk : n * (k * m) = 1 := Nat.eq_one_of_mul_eq_one_right (Nat.eq_one_of_mul_eq_one_right h1)
  have hn1' : n = 1 := Nat.eq_one_of_mul_eq_one_right hnk
  have hk1' : k = 1 := Nat.eq_one_of_mul_eq_one_right (Nat.eq_one_of_mul_eq_one_left hnk)
  have := R.h1; have := R.w1
  have hlh : lh = 1 := by omega
  have hlw : lw = 1 := by omega
  rcases R.enough with h | h | h
  · cases h
  · rw [hn1', hlh, hlw] at h; omega
  · omega

theorem resBlock_ok {nm : Norm} {ch n lh lw a b : ℕ} (R : Room nm ch n lh lw) (ha : 1 ≤ a) (hb : 1 ≤ b) {x : Shape}
    (hn : x.n = n) (hc : x.c = ch * a) (hh : lh ≤ x.h) (hw : lw ≤ x.w) :
    resBlock nm (ch * a) (ch * b) x = .ok ⟨x.n, ch * b, x.h, x.w⟩ := by
  have h1 := R.h1; have w1 := R.w1
  have c1 := conv_same (cin := ch * a) (ch * b) (x := x) hc (by omega) (by omega)
  have c2 := conv_same (cin := ch * b) (ch * b) (x := ⟨x.n, ch * b, x.h, x.w⟩) rfl (by simp; omega) (by simp; omega)
  have k2 := keep_ok R hb (x := ⟨x.n, ch * b, x.h, x.w⟩) hn rfl hh hw
  simp only [resBlock, keep_ok R ha hn hc hh hw, bind, Except.bind, c1, k2, c2]
  by_cases he : ch * a ≠ ch * b
  · rw [if_pos he, conv_one (cin := ch * a) (ch * b) hc (by omega) (by omega)]
    simp [add]
  · rw [if_neg he]
    have : x = ⟨x.n, ch * b, x.h, x.w⟩ := by
      have hcb : x.c = ch * b := by rw [hc]; exact not_not.mp he
      cases x; simp only at hcb; rw [hcb]
    simp only [add]
    rw [if_pos this]

theorem attnBlock_ok {nm : Norm} {ch n lh lw a : ℕ} (R : Room nm ch n lh lw) (ha : 1 ≤ a) {x : Shape}
    (hn : x.n = n) (hc : x.c = ch * a) (hh : lh ≤ x.h) (hw : lw ≤ x.w) :
    attnBlock nm (ch * a) x = .ok x := by
  simp only [attnBlock, keep_ok R ha hn hc hh hw, bind, Except.bind, add, if_true]

theorem mid_ok {nm : Norm} {ch n lh lw a : ℕ} (R : Room nm ch n lh lw) (ha : 1 ≤ a) {x : Shape}
    (hn : x.n = n) (hc : x.c = ch * a) (hh : lh ≤ x.h) (hw : lw ≤ x.w) :
    mid nm (ch * a) x = .ok x := by
  have e : (⟨x.n, ch * a, x.h, x.w⟩ : Shape) = x := by cases x; simp only at hc; rw [hc]
  have r := resBlock_ok R ha ha hn hc hh hw
  rw [e] at r
  simp only [mid, r, bind, Except.bind, attnBlock_ok R ha hn hc hh hw]

theorem downsample_ok {wc : Bool} {c : ℕ} {x : Shape} (hc : x.c = c) (hh : 2 ≤ x.h) (hw : 2 ≤ x.w) :
    downsample wc c x = .ok ⟨x.n, x.c, x.h / 2, x.w / 2⟩ := by
  subst hc
  cases wc
  · simp only [downsample, Bool.false_eq_true, if_false]
    rw [if_neg (by omega)]
    congr 2 <;> omega
  · simp only [downsample, if_true, conv]
    rw [if_neg (by omega)]
    congr 2 <;> omega

theorem downsample_small {wc : Bool} {c : ℕ} {x : Shape} (h : x.h < 2 ∨ x.w < 2) :
    downsample wc c x = .error .runtime := by
  cases wc
  · simp only [downsample, Bool.false_eq_true, if_false]
    rw [if_pos h]
  · simp only [downsample, if_true, conv]
    rw [if_pos (by omega)]

theorem upsample_ok {wc : Bool} {c : ℕ} {x : Shape} (hc : x.c = c) (hh : 1 ≤ x.h) (hw : 1 ≤ x.w) :
    upsample wc c x = .ok ⟨x.n, x.c, 2 * x.h, 2 * x.w⟩ := by
  subst hc
  cases wc
  · simp [upsample]
  · simp only [upsample, if_true]
    rw [conv_same (cin := x.c) x.c (x := ⟨x.n, x.c, 2 * x.h, 2 * x.w⟩) rfl (by simp only; omega) (by simp only; omega)]

/-! ### Construction -/

theorem createNorm_ok {nm : Norm} {ch m : ℕ} (h : Admits nm ch) (hl : nm ≠ .channelLast) (hm : 1 ≤ m) :
    createNorm nm (ch * m) = .ok () := by
  cases nm with
  | group =>
    obtain ⟨k, rfl⟩ : 16 ∣ ch := h
    simp [createNorm, Nat.mul_assoc]
  | channel =>
    have h : 2 ≤ ch := h
    have : 2 * 1 ≤ ch * m := Nat.mul_le_mul h hm
    simp only [createNorm]
    rw [if_neg (by omega)]
  | channelLast => exact absurd rfl hl
  | other => exact h.elim

theorem admits_block {cfg : Config} (h : Admits cfg.norm cfg.ch) : Admits (blockNorm cfg) cfg.ch := by
  unfold blockNorm
  split
  · rename_i e; rw [e] at h; exact h
  · exact h

theorem blockNorm_ne (cfg : Config) : blockNorm cfg ≠ .channelLast := by
  unfold blockNorm
  split
  · decide
  · assumption

theorem lastNorm_ne (cfg : Config) : lastNorm cfg ≠ .channelLast := by
  unfold lastNorm
  split
  · decide
  · assumption

theorem admits_last {cfg : Config} (h1 : 1 ≤ cfg.ch) (h : Admits cfg.norm cfg.ch) : Admits (lastNorm cfg) cfg.ch := by
  unfold lastNorm
  split
  · rename_i e; rw [e] at h
    obtain ⟨k, hk⟩ : 16 ∣ cfg.ch := h
    show 2 ≤ cfg.ch
    omega
  · exact h

/-- Blocks of one level: construction and effect. -/
theorem blocks_ok {nm : Norm} {ch b : ℕ} (hA : Admits nm ch) (hl : nm ≠ .channelLast) (hb : 1 ≤ b) (att : Bool) :
    ∀ (k a : ℕ), 1 ≤ a → ∃ bs as, buildBlocks nm att (ch * b) k (ch * a) = .ok (bs, as, if k = 0 then ch * a else ch * b) ∧
      as.isEmpty = (!att || k == 0) ∧
      ∀ (n lh lw : ℕ), Room nm ch n lh lw → ∀ x : Shape, x.n = n → x.c = ch * a → lh ≤ x.h → lw ≤ x.w →
        runBlocks nm att bs as x = .ok ⟨x.n, if k = 0 then ch * a else ch * b, x.h, x.w⟩
  | 0, a, ha => by
    refine ⟨[], [], rfl, by simp, ?_⟩
    intro n lh lw R x hn hc hh hw
    simp only [runBlocks, if_true]
    cases x; simp only at hc; rw [hc]
  | k + 1, a, ha => by
    obtain ⟨bs, as, e, he, hr⟩ := blocks_ok hA hl hb att k b hb
    have ef : (if k = 0 then ch * b else ch * b) = ch * b := by split <;> rfl
    refine ⟨(ch * a, ch * b) :: bs, if att then ch * b :: as else as, ?_, ?_, ?_⟩
    · simp only [buildBlocks, createNorm_ok hA hl ha, createNorm_ok hA hl hb, bind, Except.bind, e, ef]
      cases att <;> simp
    · cases att
      · simpa using he
      · simp
    · intro n lh lw R x hn hc hh hw
      have h1 := hr n lh lw R ⟨x.n, ch * b, x.h, x.w⟩ hn rfl hh hw
      rw [ef] at h1
      simp only [runBlocks, resBlock_ok R ha hb hn hc hh hw, bind, Except.bind]
      cases att
      · have has : as = [] := by simpa using he
        subst has
        simpa using h1
      · simp only [if_true, attnBlock_ok R hb (x := ⟨x.n, ch * b, x.h, x.w⟩) hn rfl hh hw, List.tail_cons]
        simpa using h1

theorem flag_eq {att : Bool} {k : ℕ} (hk : 1 ≤ k) {as : List ℕ} (h : as.isEmpty = (!att || k == 0)) :
    (!as.isEmpty) = att := by
  rw [h]
  have : (k == 0) = false := by simp; omega
  simp [this]

/-- The attention of the levels of an encoder. -/
def encAttn (attn : List ℕ) (res levels : ℕ) : List Bool := (List.range levels).map fun i => attn.contains (res / 2 ^ i)

/-- The attention of the levels of a decoder, in the order in which they run. -/
def decAttn (attn : List ℕ) (low levels : ℕ) : List Bool := (List.range levels).map fun i => attn.contains (low * 2 ^ i)

theorem encLevels_ok {cfg : Config} (hA : Admits cfg.norm cfg.ch) (hb : 1 ≤ cfg.resBlocks) :
    ∀ (ms : List ℕ) (res m0 cur : ℕ), ms ≠ [] → 1 ≤ m0 → (∀ m ∈ ms, 1 ≤ m) →
      ∃ ls r, encLevels cfg res m0 cur ms = .ok (ls, cfg.ch * ms.getLastD 0, r) ∧
        ls.map (fun l => !l.attn.isEmpty) = encAttn cfg.attnRes res ms.length ∧
        (∀ (n lh lw : ℕ), Room (blockNorm cfg) cfg.ch n lh lw → ∀ x : Shape, x.n = n → x.c = cfg.ch * m0 →
          lh * 2 ^ (ms.length - 1) ≤ x.h → lw * 2 ^ (ms.length - 1) ≤ x.w →
          runLevels (blockNorm cfg) (downsample cfg.withConv) ls x =
            .ok ⟨x.n, cfg.ch * ms.getLastD 0, x.h / 2 ^ (ms.length - 1), x.w / 2 ^ (ms.length - 1)⟩) ∧
        (∀ (n : ℕ), Room (blockNorm cfg) cfg.ch n 1 1 → ∀ x : Shape, x.n = n → x.c = cfg.ch * m0 → 1 ≤ x.h → 1 ≤ x.w →
          x.h < 2 ^ (ms.length - 1) ∨ x.w < 2 ^ (ms.length - 1) →
          runLevels (blockNorm cfg) (downsample cfg.withConv) ls x = .error .runtime)
  | [], _, _, _, h, _, _ => absurd rfl h
  | m :: ms, res, m0, cur, _, h0, hm => by
    have hm1 : 1 ≤ m := hm m (by simp)
    obtain ⟨bs, as, e, he, hr⟩ := blocks_ok (admits_block hA) (blockNorm_ne cfg) hm1 (cfg.attnRes.contains res)
      cfg.resBlocks m0 h0
    have hb0 : cfg.resBlocks ≠ 0 := by omega
    rw [if_neg hb0] at e
    have hf := flag_eq hb he
    simp only [if_neg hb0] at hr
    by_cases hms : ms = []
    · subst hms
      refine ⟨[⟨bs, as, none⟩], res, ?_, ?_, ?_, ?_⟩
      · simp only [encLevels, e, bind, Except.bind, if_true]
        rfl
      · simp only [List.map_cons, List.map_nil, hf, encAttn]
        simp
      · intro n lh lw R x hn hc hh hw
        simp only [List.length_singleton, Nat.sub_self, pow_zero, Nat.mul_one, Nat.div_one] at hh hw ⊢
        simp only [runLevels, hf, hr n lh lw R x hn hc hh hw, bind, Except.bind]
        simp
      · intro n R x hn hc hh hw hs
        simp only [List.length_singleton, Nat.sub_self, pow_zero] at hs
        omega
    · obtain ⟨ls, r, e', ea, hrun, hsm⟩ := encLevels_ok hA hb ms (res / 2) m (cfg.ch * m) hms hm1
        (fun y hy => hm y (by simp [hy]))
      have hlast : (m :: ms).getLastD 0 = ms.getLastD 0 := by
        cases ms with
        | nil => exact absurd rfl hms
        | cons y ys => simp [List.getLastD]
      have hlen : 1 ≤ ms.length := by cases ms with
        | nil => exact absurd rfl hms
        | cons => simp
      have hp : 2 ^ ((m :: ms).length - 1) = 2 * 2 ^ (ms.length - 1) := by
        rw [← pow_succ']; congr 1; simp only [List.length_cons]; omega
      refine ⟨⟨bs, as, some (cfg.ch * m)⟩ :: ls, r, ?_, ?_, ?_, ?_⟩
      · simp only [encLevels, e, bind, Except.bind, if_neg hms, e', hlast]
      · simp only [List.map_cons, hf, ea, encAttn, List.length_cons, List.range_succ_eq_map, List.map_map]
        simp only [pow_zero, Nat.div_one, List.cons.injEq, true_and]
        refine List.map_congr_left fun i _ => ?_
        simp only [Function.comp, pow_succ', Nat.div_div_eq_div_mul]
      · intro n lh lw R x hn hc hh hw
        rw [hp] at hh hw ⊢
        have p1 : 1 ≤ 2 ^ (ms.length - 1) := Nat.one_le_two_pow
        have a1 : lh * 2 ^ (ms.length - 1) * 2 ≤ x.h := by linarith [hh, Nat.mul_comm 2 (2 ^ (ms.length - 1)), Nat.mul_assoc lh (2 ^ (ms.length - 1)) 2, congrArg (lh * ·) (Nat.mul_comm 2 (2 ^ (ms.length - 1)))]
        have a2 : lw * 2 ^ (ms.length - 1) * 2 ≤ x.w := by linarith [hw, Nat.mul_assoc lw (2 ^ (ms.length - 1)) 2, congrArg (lw * ·) (Nat.mul_comm 2 (2 ^ (ms.length - 1)))]
        have b1 : lh * 1 ≤ lh * 2 ^ (ms.length - 1) := Nat.mul_le_mul_left _ p1
        have b2 : lw * 1 ≤ lw * 2 ^ (ms.length - 1) := Nat.mul_le_mul_left _ p1
        have := R.h1; have := R.w1
        have d := downsample_ok (wc := cfg.withConv) (c := cfg.ch * m) (x := ⟨x.n, cfg.ch * m, x.h, x.w⟩) rfl
          (by simp only; omega) (by simp only; omega)
        have := hrun n lh lw R ⟨x.n, cfg.ch * m, x.h / 2, x.w / 2⟩ hn rfl (by simp only; omega) (by simp only; omega)
        simp only [runLevels, hf, hr n lh lw R x hn hc (by omega) (by omega), bind, Except.bind, d, this, hlast]
        simp only [Nat.div_div_eq_div_mul]
      · intro n R x hn hc hh hw hs
        rw [hp] at hs
        simp only [runLevels, hf, hr n 1 1 R x hn hc hh hw, bind, Except.bind]
        by_cases hd : x.h < 2 ∨ x.w < 2
        · rw [downsample_small (x := ⟨x.n, cfg.ch * m, x.h, x.w⟩) hd]
        · rw [downsample_ok (c := cfg.ch * m) (x := ⟨x.n, cfg.ch * m, x.h, x.w⟩) rfl (by simp only; omega) (by simp only; omega)]
          exact hsm n R ⟨x.n, cfg.ch * m, x.h / 2, x.w / 2⟩ hn rfl (by simp only; omega) (by simp only; omega)
            (by simp only; omega)

theorem decLevels_ok {cfg : Config} (hA : Admits cfg.norm cfg.ch) :
    ∀ (ms : List ℕ) (res a : ℕ), ms ≠ [] → 1 ≤ a → (∀ m ∈ ms, 1 ≤ m) →
      ∃ ls, decLevels cfg res (cfg.ch * a) ms = .ok (ls, cfg.ch * ms.getLastD 0) ∧
        ls.map (fun l => !l.attn.isEmpty) = decAttn cfg.attnRes res ms.length ∧
        ∀ (n lh lw : ℕ), Room (blockNorm cfg) cfg.ch n lh lw → ∀ x : Shape, x.n = n → x.c = cfg.ch * a →
          lh ≤ x.h → lw ≤ x.w →
          runLevels (blockNorm cfg) (upsample cfg.withConv) ls x =
            .ok ⟨x.n, cfg.ch * ms.getLastD 0, 2 ^ (ms.length - 1) * x.h, 2 ^ (ms.length - 1) * x.w⟩
  | [], _, _, h, _, _ => absurd rfl h
  | m :: ms, res, a, _, h0, hm => by
    have hm1 : 1 ≤ m := hm m (by simp)
    obtain ⟨bs, as, e, he, hr⟩ := blocks_ok (admits_block hA) (blockNorm_ne cfg) hm1 (cfg.attnRes.contains res)
      (cfg.resBlocks + 1) a h0
    have hb0 : cfg.resBlocks + 1 ≠ 0 := by omega
    rw [if_neg hb0] at e
    have hf := flag_eq (by omega) he
    simp only [if_neg hb0] at hr
    by_cases hms : ms = []
    · subst hms
      refine ⟨[⟨bs, as, none⟩], ?_, ?_, ?_⟩
      · simp only [decLevels, e, bind, Except.bind, if_true]
        rfl
      · simp only [List.map_cons, List.map_nil, hf, decAttn]
        simp
      · intro n lh lw R x hn hc hh hw
        simp only [runLevels, hf, hr n lh lw R x hn hc hh hw, bind, Except.bind]
        simp
    · obtain ⟨ls, e', ea, hrun⟩ := decLevels_ok hA ms (res * 2) m hms hm1 (fun y hy => hm y (by simp [hy]))
      have hlast : (m :: ms).getLastD 0 = ms.getLastD 0 := by
        cases ms with
        | nil => exact absurd rfl hms
        | cons y ys => simp [List.getLastD]
      have hp : 2 ^ ((m :: ms).length - 1) = 2 ^ (ms.length - 1) * 2 := by
        rw [← pow_succ]; congr 1; simp only [List.length_cons]
        have : 1 ≤ ms.length := by cases ms with
          | nil => exact absurd rfl hms
          | cons => simp
        omega
      refine ⟨⟨bs, as, some (cfg.ch * m)⟩ :: ls, ?_, ?_, ?_⟩
      · simp only [decLevels, e, bind, Except.bind, if_neg hms, e', hlast]
      · simp only [List.map_cons, hf, ea, decAttn, List.length_cons, List.range_succ_eq_map, List.map_map]
        simp only [pow_zero, Nat.mul_one, List.cons.injEq, true_and]
        refine List.map_congr_left fun i _ => ?_
        simp only [Function.comp, pow_succ', Nat.mul_assoc]
      · intro n lh lw R x hn hc hh hw
        have := R.h1; have := R.w1
        have d := upsample_ok (wc := cfg.withConv) (c := cfg.ch * m) (x := ⟨x.n, cfg.ch * m, x.h, x.w⟩) rfl
          (by simp only; omega) (by simp only; omega)
        have := hrun n lh lw R ⟨x.n, cfg.ch * m, 2 * x.h, 2 * x.w⟩ hn rfl (by simp only; omega) (by simp only; omega)
        simp only [runLevels, hf, hr n lh lw R x hn hc hh hw, bind, Except.bind, d, this, hlast, hp]
        congr 2 <;> ring

theorem room_block {cfg : Config} (S : Sensible cfg) (hA : Admits cfg.norm cfg.ch) {n lh lw : ℕ} (hn : 1 ≤ n)
    (hh : 1 ≤ lh) (hw : 1 ≤ lw) (he : Enough cfg n lh lw) : Room (blockNorm cfg) cfg.ch n lh lw := by
  refine ⟨hn, hh, hw, admits_block hA, S.ch, ?_⟩
  rcases he with h | h | h
  · left; unfold blockNorm; rw [h]; rfl
  · exact .inr (.inl h)
  · exact .inr (.inr h)

theorem room_last {cfg : Config} (S : Sensible cfg) (hA : Admits cfg.norm cfg.ch) {n lh lw : ℕ} (hn : 1 ≤ n)
    (hh : 1 ≤ lh) (hw : 1 ≤ lw) (he : Enough cfg n lh lw) : Room (lastNorm cfg) cfg.ch n lh lw := by
  refine ⟨hn, hh, hw, admits_last S.ch hA, S.ch, ?_⟩
  rcases he with h | h | h
  · left; unfold lastNorm; rw [h]; rfl
  · exact .inr (.inl h)
  · exact .inr (.inr h)

theorem enough_mono {cfg : Config} {n a b c d : ℕ} (h : Enough cfg n a b) (h1 : a ≤ c) (h2 : b ≤ d) : Enough cfg n c d := by
  rcases h with h | h | h
  · exact .inl h
  · refine .inr (.inl (h.trans ?_))
    exact Nat.mul_le_mul (Nat.mul_le_mul_left _ h1) h2
  · exact .inr (.inr h)

theorem getLastD_mem {l : List ℕ} (h : l ≠ []) : l.getLastD 0 ∈ l := by
  rw [List.getLastD_eq_getLast?, List.getLast?_eq_some_getLast h]
  exact List.getLast_mem h

/-- Everything about a model that was built. -/
theorem build_ok {cfg : Config} (S : Sensible cfg) (hA : Admits cfg.norm cfg.ch) :
    ∃ m, build cfg = .ok m ∧
      m.enc.levels.map (fun l => !l.attn.isEmpty) = encAttn cfg.attnRes cfg.resolution cfg.chMult.length ∧
      m.dec.levels.map (fun l => !l.attn.isEmpty) = decAttn cfg.attnRes (lowest cfg) cfg.chMult.length ∧
      (∀ n lh lw, 1 ≤ n → 1 ≤ lh → 1 ≤ lw → Enough cfg n lh lw → ∀ h w, lh * factor cfg ≤ h → lw * factor cfg ≤ w →
        encode cfg m.enc ⟨n, cfg.inChannels, h, w⟩ = .ok ⟨n, cfg.embedDim, h / factor cfg, w / factor cfg⟩) ∧
      (∀ n, 1 ≤ n → Enough cfg n 1 1 → ∀ h w, 1 ≤ h → 1 ≤ w → h < factor cfg ∨ w < factor cfg →
        encode cfg m.enc ⟨n, cfg.inChannels, h, w⟩ = .error .runtime) ∧
      (∀ n h w, 1 ≤ n → 1 ≤ h → 1 ≤ w → Enough cfg n h w →
        decode cfg m.dec ⟨n, cfg.embedDim, h, w⟩ = .ok ⟨n, cfg.outCh, factor cfg * h, factor cfg * w⟩) := by
  obtain ⟨ls, r, e, ea, hrun, hsm⟩ := encLevels_ok hA S.blocks cfg.chMult cfg.resolution 1 cfg.ch S.levels le_rfl S.mult
  have hl1 : 1 ≤ cfg.chMult.getLastD 0 := S.mult _ (getLastD_mem S.levels)
  obtain ⟨m, ms, hrev⟩ : ∃ m ms, cfg.chMult.reverse = m :: ms := by
    cases h : cfg.chMult.reverse with
    | nil => exact absurd (List.reverse_eq_nil_iff.mp h) S.levels
    | cons m ms => exact ⟨m, ms, rfl⟩
  have hmem : ∀ y ∈ m :: ms, 1 ≤ y := fun y hy => S.mult y (List.mem_reverse.mp (hrev ▸ hy))
  obtain ⟨ds, e', ea', hrun'⟩ := decLevels_ok hA (m :: ms) (lowest cfg) m (by simp) (hmem m (by simp)) hmem
  have hd1 : 1 ≤ (m :: ms).getLastD 0 := hmem _ (getLastD_mem (by simp))
  have hlen : (m :: ms).length = cfg.chMult.length := by rw [← hrev, List.length_reverse]
  have k1 := createNorm_ok (admits_block hA) (blockNorm_ne cfg) hl1
  have k2 := createNorm_ok (admits_block hA) (blockNorm_ne cfg) (hmem m (by simp))
  have k3 := createNorm_ok (admits_last S.ch hA) (lastNorm_ne cfg) hd1
  refine ⟨⟨⟨ls, cfg.ch * cfg.chMult.getLastD 0⟩, ⟨ds, cfg.ch * (m :: ms).getLastD 0⟩⟩, ?_, ea, ?_, ?_, ?_, ?_⟩
  · simp only [build, buildEncoder, buildDecoder, if_neg S.levels, bind, Except.bind, e, k1, hrev, k2, e', k3]
  · rw [← hlen]; exact ea'
  · intro n lh lw hn hh hw he h w ah aw
    have R := room_block S hA hn hh hw he
    have f1 : 1 ≤ factor cfg := Nat.one_le_two_pow
    have b1 : lh * 1 ≤ lh * factor cfg := Nat.mul_le_mul_left _ f1
    have b2 : lw * 1 ≤ lw * factor cfg := Nat.mul_le_mul_left _ f1
    have c1 := conv_same (cin := cfg.inChannels) cfg.ch (x := ⟨n, cfg.inChannels, h, w⟩) rfl (by simp only; omega)
      (by simp only; omega)
    have r1 := hrun n lh lw R ⟨n, cfg.ch, h, w⟩ rfl (by simp) ah aw
    have d1 : lh ≤ h / factor cfg := (Nat.le_div_iff_mul_le (by omega)).mpr ah
    have d2 : lw ≤ w / factor cfg := (Nat.le_div_iff_mul_le (by omega)).mpr aw
    change _ = Except.ok (⟨n, cfg.ch * cfg.chMult.getLastD 0, h / factor cfg, w / factor cfg⟩ : Shape) at r1
    have m1 := mid_ok R hl1 (x := ⟨n, cfg.ch * cfg.chMult.getLastD 0, h / factor cfg, w / factor cfg⟩) rfl rfl d1 d2
    have q1 := keep_ok R hl1 (x := ⟨n, cfg.ch * cfg.chMult.getLastD 0, h / factor cfg, w / factor cfg⟩) rfl rfl d1 d2
    have c2 := conv_same (cin := cfg.ch * cfg.chMult.getLastD 0) cfg.embedDim
      (x := ⟨n, cfg.ch * cfg.chMult.getLastD 0, h / factor cfg, w / factor cfg⟩) rfl (by simp only; omega)
      (by simp only; omega)
    simp only [encode, bind, Except.bind, c1, r1, m1, q1, c2]
  · intro n hn he h w hh hw hs
    have R := room_block S hA hn le_rfl le_rfl he
    have c1 := conv_same (cin := cfg.inChannels) cfg.ch (x := ⟨n, cfg.inChannels, h, w⟩) rfl hh hw
    have r1 := hsm n R ⟨n, cfg.ch, h, w⟩ rfl (by simp) hh hw hs
    simp only [encode, bind, Except.bind, c1, r1]
  · intro n h w hn hh hw he
    have R := room_block S hA hn hh hw he
    have R' := room_last S hA hn hh hw he
    have f1 : 1 ≤ factor cfg := Nat.one_le_two_pow
    have b1 : 1 * h ≤ factor cfg * h := Nat.mul_le_mul_right _ f1
    have b2 : 1 * w ≤ factor cfg * w := Nat.mul_le_mul_right _ f1
    have c1 := conv_same (cin := cfg.embedDim) (cfg.ch * m) (x := ⟨n, cfg.embedDim, h, w⟩) rfl hh hw
    have m1 := mid_ok R (hmem m (by simp)) (x := ⟨n, cfg.ch * m, h, w⟩) rfl rfl le_rfl le_rfl
    have r1 := hrun' n h w R ⟨n, cfg.ch * m, h, w⟩ rfl rfl le_rfl le_rfl
    rw [hlen] at r1
    change _ = Except.ok (⟨n, cfg.ch * (m :: ms).getLastD 0, factor cfg * h, factor cfg * w⟩ : Shape) at r1
    have q1 := keep_ok R' hd1 (x := ⟨n, cfg.ch * (m :: ms).getLastD 0, factor cfg * h, factor cfg * w⟩) rfl rfl
      (by simp only; omega) (by simp only; omega)
    have c2 := conv_same (cin := cfg.ch * (m :: ms).getLastD 0) cfg.outCh
      (x := ⟨n, cfg.ch * (m :: ms).getLastD 0, factor cfg * h, factor cfg * w⟩) rfl (by simp only; omega)
      (by simp only; omega)
    simp only [decode, bind, Except.bind, hrev, List.headD_cons, c1, m1, r1, q1, c2]

/-! ### C100 -/

theorem build_error {cfg : Config} (S : Sensible cfg) (hA : ¬ Admits cfg.norm cfg.ch) : build cfg = .error .value := by
  have hn : createNorm (blockNorm cfg) cfg.ch = .error .value := by
    unfold blockNorm
    cases h : cfg.norm <;> rw [h] at hA <;> simp only [createNorm, Admits, reduceCtorEq, if_true, if_false] at hA ⊢
    · rw [if_neg (by omega)]
    · rw [if_pos (by omega)]
    · rw [if_neg (by omega)]
  obtain ⟨k, hk⟩ : ∃ k, cfg.resBlocks = k + 1 := ⟨cfg.resBlocks - 1, by have := S.blocks; omega⟩
  cases hm : cfg.chMult with
  | nil => exact absurd hm S.levels
  | cons m ms =>
    simp only [build, buildEncoder, hm, reduceCtorEq, if_false, bind, Except.bind, encLevels, hk, buildBlocks,
      Nat.mul_one, hn]

/-- **C100, construction.** For sensible arguments the constructor succeeds exactly if the base number of channels suits the
normalisation (a multiple of 16 for group normalisation, at least two for channel normalisation); otherwise it raises a
`ValueError`. -/
theorem C100_build {cfg : Config} (S : Sensible cfg) :
    (Admits cfg.norm cfg.ch → ∃ m, build cfg = .ok m) ∧ (¬ Admits cfg.norm cfg.ch → build cfg = .error .value) :=
  ⟨fun h => (build_ok S h).imp fun _ hm => hm.1, build_error S⟩

theorem admits_of_build {cfg : Config} (S : Sensible cfg) {m : Model} (h : build cfg = .ok m) : Admits cfg.norm cfg.ch := by
  by_contra hA
  rw [build_error S hA] at h
  cases h

/-- What was built. -/
theorem built {cfg : Config} (S : Sensible cfg) {m : Model} (h : build cfg = .ok m) :
      m.enc.levels.map (fun l => !l.attn.isEmpty) = encAttn cfg.attnRes cfg.resolution cfg.chMult.length ∧
      m.dec.levels.map (fun l => !l.attn.isEmpty) = decAttn cfg.attnRes (lowest cfg) cfg.chMult.length ∧
      (∀ n lh lw, 1 ≤ n → 1 ≤ lh → 1 ≤ lw → Enough cfg n lh lw → ∀ h w, lh * factor cfg ≤ h → lw * factor cfg ≤ w →
        encode cfg m.enc ⟨n, cfg.inChannels, h, w⟩ = .ok ⟨n, cfg.embedDim, h / factor cfg, w / factor cfg⟩) ∧
      (∀ n, 1 ≤ n → Enough cfg n 1 1 → ∀ h w, 1 ≤ h → 1 ≤ w → h < factor cfg ∨ w < factor cfg →
        encode cfg m.enc ⟨n, cfg.inChannels, h, w⟩ = .error .runtime) ∧
      (∀ n h w, 1 ≤ n → 1 ≤ h → 1 ≤ w → Enough cfg n h w →
        decode cfg m.dec ⟨n, cfg.embedDim, h, w⟩ = .ok ⟨n, cfg.outCh, factor cfg * h, factor cfg * w⟩) := by
  obtain ⟨m', e, hm⟩ := build_ok S (admits_of_build S h)
  rw [h] at e
  cases e
  exact hm

theorem ceilDiv_mul {f n : ℕ} (hf : 1 ≤ f) : n ≤ ceilDiv n f * f ∧ ceilDiv n f * f < n + f := by
  unfold ceilDiv
  have h := Nat.div_add_mod (n + f - 1) f
  have h2 := Nat.mod_lt (n + f - 1) hf
  rw [Nat.mul_comm] at h
  omega

theorem pad_eq {f : ℕ} (hf : 1 ≤ f) (n : ℕ) : n + (Hific.vqvaePad f n).toNat = ceilDiv n f * f := by
  obtain ⟨p, hp, hd, hle, hmin⟩ := Hific.C51_vqvae_partial f n hf
  rw [hp, Int.toNat_natCast]
  have h1 := ceilDiv_mul (n := n) hf
  have h2 := hmin (ceilDiv n f * f) (Dvd.intro_left _ rfl) h1.1
  obtain ⟨k, hk⟩ := hd
  rw [hk] at h2 hle ⊢
  rw [Nat.mul_comm f k] at h2 hle ⊢
  congr 1
  by_contra hne
  have : k ≤ ceilDiv n f := Nat.le_of_mul_le_mul_right h2 hf
  have : k + 1 ≤ ceilDiv n f := by omega
  have := Nat.mul_le_mul_right f this
  rw [Nat.add_mul] at this
  omega

/-- **C100, evaluation.** In evaluation mode an image of any size, unless its padding is too large for reflection, gets a
latent of `⌈h/f⌉ × ⌈w/f⌉` and a reconstruction of exactly its own size, where `f = 2 ^ (levels - 1)`. -/
theorem C100_eval {cfg : Config} (S : Sensible cfg) {m : Model} (hb : build cfg = .ok m) {n h w f : ℕ}
    (hf : f = 2 ^ (cfg.chMult.length - 1)) (hn : 1 ≤ n) (hh : 1 ≤ h) (hw : 1 ≤ w)
    (ph : ceilDiv h f * f < 2 * h) (pw : ceilDiv w f * f < 2 * w) (he : Enough cfg n (ceilDiv h f) (ceilDiv w f)) :
    forward cfg m false ⟨n, cfg.inChannels, h, w⟩ =
      .ok (⟨n, cfg.embedDim, ceilDiv h f, ceilDiv w f⟩, ⟨n, cfg.outCh, h, w⟩) := by
  obtain ⟨-, -, henc, -, hdec⟩ := built S hb
  have hf' : factor cfg = f := hf.symm
  have f1 : 1 ≤ f := by rw [hf]; exact Nat.one_le_two_pow
  rw [hf'] at henc hdec
  have eh := pad_eq f1 h
  have ew := pad_eq f1 w
  have gh := ceilDiv_mul (n := h) f1
  have gw := ceilDiv_mul (n := w) f1
  have ch1 : 1 ≤ ceilDiv h f := by
    by_contra hc
    rw [show ceilDiv h f = 0 by omega, Nat.zero_mul] at gh; omega
  have cw1 : 1 ≤ ceilDiv w f := by
    by_contra hc
    rw [show ceilDiv w f = 0 by omega, Nat.zero_mul] at gw; omega
  have E := henc n (ceilDiv h f) (ceilDiv w f) hn ch1 cw1 he (ceilDiv h f * f) (ceilDiv w f * f) le_rfl le_rfl
  rw [Nat.mul_div_cancel _ (by omega), Nat.mul_div_cancel _ (by omega)] at E
  have D := hdec n _ _ hn ch1 cw1 he
  have P : padded cfg false ⟨n, cfg.inChannels, h, w⟩ =
      Except.ok (⟨n, cfg.inChannels, ceilDiv h f * f, ceilDiv w f * f⟩ : Shape) := by
    unfold padded
    rw [hf']
    dsimp only
    by_cases hp : (Hific.vqvaePad f h).toNat ≠ 0 ∨ (Hific.vqvaePad f w).toNat ≠ 0
    · rw [if_pos ⟨rfl, hp⟩]
      simp only [reflect]
      rw [if_pos (by omega), eh, ew]
    · rw [if_neg (fun hc => hp hc.2)]
      congr 2 <;> omega
  simp only [forward, P, bind, Except.bind, E, D, crop]
  have g1 : min (f * ceilDiv h f) h = h := by rw [Nat.mul_comm]; omega
  have g2 : min (f * ceilDiv w f) w = w := by rw [Nat.mul_comm]; omega
  rw [g1, g2]

/-- **C100, small images.** If the padding of a side is not less than the side, evaluation raises. -/
theorem C100_eval_small {cfg : Config} (m : Model) {n c h w f : ℕ} (hf : f = 2 ^ (cfg.chMult.length - 1))
    (hh : 1 ≤ h) (hw : 1 ≤ w) (hp : 2 * h ≤ ceilDiv h f * f ∨ 2 * w ≤ ceilDiv w f * f) :
    forward cfg m false ⟨n, c, h, w⟩ = .error .runtime := by
  have hf' : factor cfg = f := hf.symm
  have f1 : 1 ≤ f := by rw [hf]; exact Nat.one_le_two_pow
  have eh := pad_eq f1 h
  have ew := pad_eq f1 w
  have P : padded cfg false ⟨n, c, h, w⟩ = .error .runtime := by
    unfold padded
    rw [hf']
    dsimp only
    rw [if_pos ⟨rfl, by omega⟩]
    simp only [reflect]
    rw [if_neg (by omega)]
  simp only [forward, P, bind, Except.bind]

/-- **C100, training.** In training mode there is no padding: a latent has `⌊h/f⌋ × ⌊w/f⌋` values and the image `⌊h/f⌋ f ×
⌊w/f⌋ f` pixels. -/
theorem C100_train {cfg : Config} (S : Sensible cfg) {m : Model} (hb : build cfg = .ok m) {n h w f : ℕ}
    (hf : f = 2 ^ (cfg.chMult.length - 1)) (hn : 1 ≤ n) (hh : f ≤ h) (hw : f ≤ w)
    (he : Enough cfg n (h / f) (w / f)) :
    forward cfg m true ⟨n, cfg.inChannels, h, w⟩ =
      .ok (⟨n, cfg.embedDim, h / f, w / f⟩, ⟨n, cfg.outCh, h / f * f, w / f * f⟩) := by
  obtain ⟨-, -, henc, -, hdec⟩ := built S hb
  have hf' : factor cfg = f := hf.symm
  have f1 : 1 ≤ f := by rw [hf]; exact Nat.one_le_two_pow
  rw [hf'] at henc hdec
  have h1 : 1 ≤ h / f := Nat.div_pos hh f1
  have w1 : 1 ≤ w / f := Nat.div_pos hw f1
  have E := henc n (h / f) (w / f) hn h1 w1 he h w (Nat.div_mul_le_self _ _) (Nat.div_mul_le_self _ _)
  have D := hdec n _ _ hn h1 w1 he
  simp only [forward, padded, Bool.true_eq_false, false_and, if_false, bind, Except.bind, E, D, crop]
  have g1 : min (f * (h / f)) h = h / f * f := by rw [Nat.mul_comm]; exact min_eq_left (Nat.div_mul_le_self _ _)
  have g2 : min (f * (w / f)) w = w / f * f := by rw [Nat.mul_comm]; exact min_eq_left (Nat.div_mul_le_self _ _)
  rw [g1, g2]

/-- **C100, training with sizes that the factor divides** (what remains of "the reconstruction has the size of the image" in
training mode). -/
theorem C100_train_partial {cfg : Config} (S : Sensible cfg) {m : Model} (hb : build cfg = .ok m) {n h w f : ℕ}
    (hf : f = 2 ^ (cfg.chMult.length - 1)) (hn : 1 ≤ n) (hh : 1 ≤ h) (hw : 1 ≤ w) (dh : f ∣ h) (dw : f ∣ w)
    (he : Enough cfg n (h / f) (w / f)) :
    forward cfg m true ⟨n, cfg.inChannels, h, w⟩ = .ok (⟨n, cfg.embedDim, h / f, w / f⟩, ⟨n, cfg.outCh, h, w⟩) := by
  rw [C100_train S hb hf hn (Nat.le_of_dvd hh dh) (Nat.le_of_dvd hw dw) he, Nat.div_mul_cancel dh, Nat.div_mul_cancel dw]

/-- **C100, training with small images** raises. -/
theorem C100_train_small {cfg : Config} (S : Sensible cfg) {m : Model} (hb : build cfg = .ok m) {n h w f : ℕ}
    (hf : f = 2 ^ (cfg.chMult.length - 1)) (hn : 1 ≤ n) (hh : 1 ≤ h) (hw : 1 ≤ w) (hs : h < f ∨ w < f)
    (he : Enough cfg n 1 1) :
    forward cfg m true ⟨n, cfg.inChannels, h, w⟩ = .error .runtime := by
  obtain ⟨-, -, -, hsm, -⟩ := built S hb
  have hf' : factor cfg = f := hf.symm
  rw [hf'] at hsm
  simp only [forward, padded, Bool.true_eq_false, false_and, if_false, bind, Except.bind, hsm n hn he h w hh hw hs]

/-- **C100, violated in training:** whenever the factor does not divide the height (of an image that is not too small) the
reconstruction is shorter than the image, without an error. -/
theorem C100_violated_train {cfg : Config} (S : Sensible cfg) {m : Model} (hb : build cfg = .ok m) {n h w f : ℕ}
    (hf : f = 2 ^ (cfg.chMult.length - 1)) (hn : 1 ≤ n) (hh : f ≤ h) (hw : f ≤ w) (hd : ¬ f ∣ h)
    (he : Enough cfg n (h / f) (w / f)) :
    ∃ z i, forward cfg m true ⟨n, cfg.inChannels, h, w⟩ = .ok (z, i) ∧ i.h < h := by
  refine ⟨_, _, C100_train S hb hf hn hh hw he, ?_⟩
  have h1 := Nat.div_mul_le_self h f
  have h2 : h / f * f ≠ h := fun hc => hd ⟨h / f, by rw [Nat.mul_comm]; exact hc.symm⟩
  show h / f * f < h
  omega

/-- **C100, projector.** The projector does not pad: it returns an index for every complete square of `f × f` pixels, and
ignores the pixels of the others. -/
theorem C100_project {cfg : Config} (S : Sensible cfg) {m : Model} (hb : build cfg = .ok m) {n h w f : ℕ}
    (hf : f = 2 ^ (cfg.chMult.length - 1)) (hn : 1 ≤ n) (hh : f ≤ h) (hw : f ≤ w)
    (he : Enough cfg n (h / f) (w / f)) :
    project cfg m ⟨n, cfg.inChannels, h, w⟩ = .ok (n * ((h / f) * (w / f))) := by
  obtain ⟨-, -, henc, -, -⟩ := built S hb
  have hf' : factor cfg = f := hf.symm
  have f1 : 1 ≤ f := by rw [hf]; exact Nat.one_le_two_pow
  rw [hf'] at henc
  have E := henc n (h / f) (w / f) hn (Nat.div_pos hh f1) (Nat.div_pos hw f1) he h w (Nat.div_mul_le_self _ _)
    (Nat.div_mul_le_self _ _)
  simp only [project, bind, Except.bind, E]

/-- **C100, attention.** If the factor divides the resolution, encoder and decoder have attention at the same levels: those
whose resolution is in the list. -/
theorem C100_attention {cfg : Config} (S : Sensible cfg) {m : Model} (hb : build cfg = .ok m)
    (hd : 2 ^ (cfg.chMult.length - 1) ∣ cfg.resolution) :
    m.enc.levels.map (fun l => !l.attn.isEmpty) =
      (List.range cfg.chMult.length).map (fun i => cfg.attnRes.contains (cfg.resolution / 2 ^ i)) ∧
    m.dec.levels.map (fun l => !l.attn.isEmpty) = (m.enc.levels.map (fun l => !l.attn.isEmpty)).reverse := by
  obtain ⟨h1, h2, -⟩ := built S hb
  refine ⟨h1, ?_⟩
  rw [h1, h2, encAttn, decAttn, ← List.map_reverse]
  refine List.ext_getElem (by simp) fun i hi _ => ?_
  simp only [List.length_map, List.length_range] at hi
  simp only [List.getElem_map, List.getElem_range, List.getElem_reverse, List.length_range]
  congr 1
  obtain ⟨k, hk⟩ := hd
  unfold lowest
  have e : 2 ^ (cfg.chMult.length - 1) = 2 ^ (cfg.chMult.length - 1 - i) * 2 ^ i := by
    rw [← pow_add]; congr 1; omega
  rw [hk, Nat.mul_div_cancel_left _ (by positivity), e, Nat.mul_assoc, Nat.mul_div_cancel_left _ (by positivity),
    Nat.mul_comm]

/-! ### Cases -/

/-- The defaults: `_vqvae_xcit_autoencoder.py:457-472`. -/
def defaults : Config := ⟨128, 3, [1, 1, 2, 2, 4], 2, [16], true, 3, 256, 256, .group⟩

theorem defaults_sensible : Sensible defaults := ⟨by decide, by decide, by decide, by decide⟩

example : ∃ m, build defaults = .ok m ∧
    forward defaults m false ⟨1, 3, 500, 333⟩ = .ok (⟨1, 256, 32, 21⟩, ⟨1, 3, 500, 333⟩) := by
  obtain ⟨m, hm⟩ := (C100_build defaults_sensible).1 (by decide : (16 : ℕ) ∣ 128)
  refine ⟨m, hm, ?_⟩
  exact C100_eval defaults_sensible hm (f := 16) rfl (by decide) (by decide) (by decide) (by decide) (by decide)
    (.inr (.inr (by decide)))

example : ∃ m, build defaults = .ok m ∧
    forward defaults m true ⟨1, 3, 500, 333⟩ = .ok (⟨1, 256, 31, 20⟩, ⟨1, 3, 496, 320⟩) ∧
    project defaults m ⟨1, 3, 500, 333⟩ = .ok 620 ∧ forward defaults m false ⟨1, 3, 8, 300⟩ = .error .runtime ∧
    forward defaults m true ⟨1, 3, 8, 300⟩ = .error .runtime := by
  obtain ⟨m, hm⟩ := (C100_build defaults_sensible).1 (by decide : (16 : ℕ) ∣ 128)
  refine ⟨m, hm, ?_, ?_, ?_, ?_⟩
  · exact C100_train defaults_sensible hm (f := 16) rfl (by decide) (by decide) (by decide) (.inr (.inr (by decide)))
  · exact C100_project defaults_sensible hm (f := 16) rfl (by decide) (by decide) (by decide) (.inr (.inr (by decide)))
  · exact C100_eval_small m (f := 16) rfl (by decide) (by decide) (.inl (by decide))
  · exact C100_train_small defaults_sensible hm (f := 16) rfl (by decide) (by decide) (by decide) (.inl (by decide))
      (.inr (.inr (by decide)))

/-- **C100, attention violated:** for a resolution of 250 the encoder has attention at a resolution of 31, the decoder not at
all. -/
theorem C100_violated_attention : ∃ (cfg : Config) (m : Model), Sensible cfg ∧ build cfg = .ok m ∧
    m.enc.levels.map (fun l => !l.attn.isEmpty) = [false, false, false, true, false] ∧
    m.dec.levels.map (fun l => !l.attn.isEmpty) = [false, false, false, false, false] := by
  let cfg : Config := { defaults with resolution := 250, attnRes := [31] }
  have S : Sensible cfg := ⟨by decide, by decide, by decide, by decide⟩
  obtain ⟨m, hm⟩ := (C100_build S).1 (by decide : (16 : ℕ) ∣ 128)
  obtain ⟨h1, h2, -⟩ := built S hm
  refine ⟨cfg, m, S, hm, ?_, ?_⟩
  · rw [h1]; decide
  · rw [h2]; decide

/-- **C100, violated for the smallest group normalisation:** with 16 channels, a single image whose latent is a single pixel
raises a `ValueError` though it needs no padding; two such images do not. -/
theorem C100_violated_single : ∃ (cfg : Config) (m : Model), Sensible cfg ∧ build cfg = .ok m ∧
    forward cfg m false ⟨1, 3, 4, 4⟩ = .error .value ∧
    forward cfg m false ⟨2, 3, 4, 4⟩ = .ok (⟨2, 256, 1, 1⟩, ⟨2, 3, 4, 4⟩) := by
  refine ⟨{ defaults with ch := 16, chMult := [1, 1, 1], resBlocks := 1 }, ?_⟩
  have S : Sensible { defaults with ch := 16, chMult := [1, 1, 1], resBlocks := 1 } :=
    ⟨by decide, by decide, by decide, by decide⟩
  let b : List (ℕ × ℕ) := [(16, 16)]
  let d : List (ℕ × ℕ) := [(16, 16), (16, 16)]
  refine ⟨⟨⟨[⟨b, [], some 16⟩, ⟨b, [], some 16⟩, ⟨b, [], none⟩], 16⟩, ⟨[⟨d, [], some 16⟩, ⟨d, [], some 16⟩, ⟨d, [], none⟩], 16⟩⟩,
    S, rfl, by decide +kernel, by decide +kernel⟩

/-- **C100, violated without residual blocks:** with no residual blocks and growing channels the constructor succeeds, but no
image can be encoded. -/
theorem C100_violated_blocks : ∃ (cfg : Config) (m : Model), cfg.resBlocks = 0 ∧ build cfg = .ok m ∧
    ∀ training x, ∃ e, forward cfg m training x = .error e := by
  refine ⟨{ defaults with resBlocks := 0, chMult := [2, 2] }, ⟨⟨[⟨[], [], some 128⟩, ⟨[], [], none⟩], 256⟩,
    ⟨[⟨[(256, 256)], [], some 256⟩, ⟨[(256, 256)], [], none⟩], 256⟩⟩, rfl, rfl, fun training x => ?_⟩
  have key : ∀ y, ∃ e, encode { defaults with resBlocks := 0, chMult := [2, 2] }
      ⟨[⟨[], [], some 128⟩, ⟨[], [], none⟩], 256⟩ y = .error e := by
    intro y
    simp only [encode, bind, Except.bind, runLevels, runBlocks]
    cases h1 : conv defaults.inChannels defaults.ch 3 1 1 y with
    | error e => exact ⟨e, rfl⟩
    | ok v =>
      simp only
      cases h2 : downsample defaults.withConv 128 v with
      | error e => exact ⟨e, rfl⟩
      | ok u =>
        have hc : u.c = 128 := by
          simp only [downsample, defaults, if_true, conv] at h2
          split at h2
          · cases h2
          · cases h2; rfl
        have hk : ∃ e, ∀ nm, keep nm 256 u = .error e ∨ keep nm 256 u = .error .runtime := by
          refine ⟨.value, fun nm => ?_⟩
          unfold keep
          by_cases hg : nm = .group ∧ u.n * u.c / 16 * u.h * u.w = 1
          · left; rw [if_pos hg]
          · right; rw [if_neg hg, if_neg (by omega)]
        obtain ⟨e, hk⟩ := hk
        simp only [mid, resBlock, bind, Except.bind]
        rcases hk (blockNorm { defaults with resBlocks := 0, chMult := [2, 2] }) with h | h
        · rw [h]; exact ⟨_, rfl⟩
        · rw [h]; exact ⟨_, rfl⟩
  simp only [forward, bind, Except.bind]
  cases padded { defaults with resBlocks := 0, chMult := [2, 2] } training x with
  | error e => exact ⟨e, rfl⟩
  | ok v =>
    obtain ⟨e, he⟩ := key v
    simp only [he]
    exact ⟨e, rfl⟩

end Verif.Models.VqVae

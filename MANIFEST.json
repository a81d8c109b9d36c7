{
 "claims": [
  {
   "property": "C01",
   "status": "proved",
   "theorems": [
    "Verif.AC.C01_roundtrip",
    "Verif.AC.C01_roundtrip_total",
    "Verif.AC.C01_roundtrip_table",
    "Verif.AC.C01_capacity",
    "Verif.AC.C01_default_buffer",
    "Verif.AC.C01_default_buffer_table"
   ],
   "note": "Round trip for every agreeing adaptive CDF pair, every message, every buffer with room; unconditional for buffers of 3n+1 bytes; table instance; C01_capacity: a buffer for the information content suffices; C01_default_buffer: from seven symbols on the default buffer suffices for 11 bits per symbol on average."
  },
  {
   "property": "C02",
   "status": "proved",
   "theorems": [
    "Verif.AC.C02_suffix_ignored",
    "Verif.AC.C02_prefix_decode"
   ],
   "note": "Any suffix is ignored; shorter lengths decode prefixes."
  },
  {
   "property": "C03",
   "status": "proved",
   "theorems": [
    "Verif.AC.C03_batch_decode",
    "Verif.AC.C03_batch_eq_single"
   ],
   "note": "Batches of different lengths decode to the messages and agree with single decoding."
  },
  {
   "property": "C04",
   "status": "proved",
   "theorems": [
    "Verif.AC.C04_encoder",
    "Verif.AC.C04_decoder_total",
    "Verif.AC.C04_decoder"
   ],
   "note": "Interval invariants and termination for all reachable encoder states and for decoding arbitrary bytes."
  },
  {
   "property": "C05",
   "status": "proved",
   "theorems": [
    "Verif.AC.C05_float_division_exact",
    "Verif.AC.C05_float_quotient"
   ],
   "note": "Bit-exact float64 quotient model; exact in every reachable decoder state."
  },
  {
   "property": "C06",
   "status": "proved",
   "theorems": [
    "Verif.AC.C06_code_length",
    "Verif.AC.C06_code_length_log"
   ],
   "note": "Integer product bound and log2 form, for the bytes returned by encode."
  },
  {
   "property": "C07",
   "status": "partial",
   "theorems": [
    "Verif.AC.C07_violated",
    "Verif.AC.C07_partial",
    "Verif.AC.C07_overrun_iff",
    "Verif.AC.C07_batch",
    "Verif.AC.C07_violated_default"
   ],
   "note": "The code violates the full property (C07_violated: i == len(buffer) passes the check). C07_partial: fewer bytes than the buffer implies the round trip. C07_overrun_iff: exact condition of the error. C07_violated_default: silent corruption of 11 symbols with the default buffer."
  },
  {
   "property": "C08",
   "status": "proved",
   "theorems": [
    "Verif.Rans.C08_pop_push",
    "Verif.Rans.C08_pop_push_room",
    "Verif.Rans.C08_codec"
   ],
   "note": "Heads, limit and live bytes restored, at the level of push/pop and of codecs with adaptive CDF state; room stated before or after the push."
  },
  {
   "property": "C09",
   "status": "proved",
   "theorems": [
    "Verif.Rans.C09_push_pop",
    "Verif.Rans.C09_push_pop_bytes",
    "Verif.Rans.C09_codec"
   ],
   "note": "Same in the other direction; bytes stated before or after the pop."
  },
  {
   "property": "C10",
   "status": "proved",
   "theorems": [
    "Verif.Rans.C10_range",
    "Verif.Rans.C10_no_overflow"
   ],
   "note": "All histories of pushes and pops, with or without room or bytes; every operation equals its unbounded-integer version."
  },
  {
   "property": "C11",
   "status": "proved",
   "theorems": [
    "Verif.Rans.C11_roundtrip",
    "Verif.Rans.C11_roundtrip_total",
    "Verif.Rans.C11_table",
    "Verif.Rans.C11_batch",
    "Verif.Rans.C11_lifo",
    "Verif.Rans.C11_capacity",
    "Verif.Rans.C11_default_capacity"
   ],
   "note": "Any agreeing CDF pair, start buffers, capacities; a-posteriori and a-priori room; batches; LIFO chains; table instance; C11_capacity: a tail that holds the information content (plus log2(1+2^(p-24)) per symbol and a byte per lane) suffices; C11_default_capacity: up to 11 bits and from 13 rows on the default capacity always suffices."
  },
  {
   "property": "C12",
   "status": "proved",
   "theorems": [
    "Verif.Rans.C12_inverse",
    "Verif.Rans.C12_unique",
    "Verif.Rans.C12_zero",
    "Verif.Rans.C12_lanes"
   ],
   "note": "Existence, uniqueness and zero-frequency exclusion for every valid table."
  },
  {
   "property": "C13",
   "status": "proved",
   "theorems": [
    "Verif.Rans.C13_array_roundtrip",
    "Verif.Rans.C13_state_roundtrip",
    "Verif.Rans.C13_trim_insert"
   ],
   "note": "Both directions, and trimming/reinserting for any sufficient capacity."
  },
  {
   "property": "C14",
   "status": "partial",
   "theorems": [
    "Verif.Rans.C14_violated",
    "Verif.Rans.C14_partial",
    "Verif.Rans.C14_single_lane",
    "Verif.Rans.C14_violated_default"
   ],
   "note": "Violated (C14_violated: 3 lanes, capacity 4, wrong message without error). C14_partial: if the output shows L unused bytes the message is recovered. C14_single_lane: with one lane never silent. C14_violated_default: silent corruption with the default capacity too (20 bits, 3 lanes, 5 rows)."
  },
  {
   "property": "C15",
   "status": "partial",
   "theorems": [
    "Verif.Rans.C15_table_laws",
    "Verif.Rans.C15_partial",
    "Verif.Rans.C15_violated",
    "Verif.Rans.C15_nested_repaired",
    "Verif.Rans.C15_nested_all",
    "Verif.Rans.C15_roundtrip",
    "Verif.Rans.C15_tables"
   ],
   "note": "Violated for nested codecs (C15_violated: TypeError). C15_partial: laws preserved for components accepting the optional argument; C15_roundtrip/C15_tables: messages; C15_nested_repaired, C15_nested_all: nesting in every position and to every depth once the argument is ignored."
  },
  {
   "property": "C16",
   "status": "partial",
   "theorems": [
    "Verif.Rans.C16_partial",
    "Verif.Rans.C16_violated"
   ],
   "note": "Violated for two lanes (C16_violated). C16_partial: one lane with any number of rows, or one row with any number of lanes."
  },
  {
   "property": "C17",
   "status": "proved",
   "theorems": [
    "Verif.Rans.C17_peek",
    "Verif.Rans.C17_peek_push"
   ],
   "note": "peek is a function of the heads; pop returns the symbols of the peeked values."
  },
  {
   "property": "C18",
   "status": "proved",
   "theorems": [
    "Verif.Rans.C18_push",
    "Verif.Rans.C18_message"
   ],
   "note": "Per push and per message, in bits over the reals."
  },
  {
   "property": "C19",
   "status": "proved",
   "theorems": [
    "Verif.Diffusion.C19_lossless",
    "Verif.Diffusion.C19_decode_encode"
   ],
   "note": "For all networks, step counts and lawful primitive codecs (craystack is external: its push/pop laws are the hypothesis, met by the concrete coder in Diffusion/Example.lean). Both directions."
  },
  {
   "property": "C20",
   "status": "proved",
   "theorems": [
    "Verif.Diffusion.C20_lifo"
   ],
   "note": "Induction on the sequence."
  },
  {
   "property": "C21",
   "status": "partial",
   "theorems": [
    "Verif.Diffusion.C21_partial",
    "Verif.Diffusion.C21_partial_encode",
    "Verif.Diffusion.C21_used",
    "Verif.Diffusion.C21_violated",
    "Verif.Diffusion.C21_repaired"
   ],
   "note": "Violated: the state dict key extr_bytes is misspelt (C21_violated). C21_partial: all other fields, decode, encode and the other statistics; C21_repaired: with the right key everything is restored."
  },
  {
   "property": "C22",
   "status": "proved",
   "theorems": [
    "Verif.Diffusion.C22_rejects",
    "Verif.Diffusion.C22_exhausted",
    "Verif.Diffusion.C22_quantize",
    "Verif.Diffusion.C22_quantize_range"
   ],
   "note": "Exactly the bad inputs are rejected and nothing changes; quantise/dequantise over the reals with a bound on tolerated error."
  },
  {
   "property": "C23",
   "status": "proved",
   "theorems": [
    "Verif.Vct.C23_roundtrip",
    "Verif.Vct.C23_rejects",
    "Verif.Vct.C23_channels_first"
   ],
   "note": "All batch sizes, channels, heights, widths and strides. Sizes whose reflection padding is not smaller than the size raise (C23_rejects)."
  },
  {
   "property": "C24",
   "status": "proved",
   "theorems": [
    "Verif.Vct.C24_windows"
   ],
   "note": "Number of patches, alignment of blocks, and the convolution based extraction equals direct slicing."
  },
  {
   "property": "C25",
   "status": "proved",
   "theorems": [
    "Verif.Vct.C25_lossless",
    "Verif.Vct.C25_same_parameters",
    "Verif.Vct.C25_single_pass"
   ],
   "note": "For every network function (causal or not), lossless symbol coder, size and latent; the full path through patching and un-patching. The coder (compressai) is external: its losslessness on valid table indices is the hypothesis, and C28 proves the indices valid. C25_single_pass: for causal networks the sequential predictions equal one pass."
  },
  {
   "property": "C26",
   "status": "partial",
   "theorems": [
    "Verif.Vct.C26_violated",
    "Verif.Vct.C26_partial"
   ],
   "note": "Violated at ties (C26_violated: 1/2 with predicted mean 1). C26_partial: equal when no entry is half way between integers, never more than one apart."
  },
  {
   "property": "C27",
   "status": "partial",
   "theorems": [
    "Verif.Vct.C27_violated",
    "Verif.Vct.C27_partial"
   ],
   "note": "Violated for every configuration (C27_violated): the scale that comes back is too large by scales_min. C27_partial: the exact relation, index range, monotonicity."
  },
  {
   "property": "C28",
   "status": "proved",
   "theorems": [
    "Verif.Vct.C28_range",
    "Verif.Vct.C28_unambiguous",
    "Verif.Vct.C28_entry"
   ],
   "note": "Range, agreement of both sides, entries shared exactly by equal bins, and closeness of the stored Gaussian to the predicted one; over the reals."
  },
  {
   "property": "C29",
   "status": "proved",
   "theorems": [
    "Verif.Vct.C29_bin_mass",
    "Verif.Vct.C29_distribution",
    "Verif.Vct.C29_reported"
   ],
   "note": "With the Gaussian measure of Mathlib; also the sum over all integers is exactly one. C29_reported: with the lower bound (1e-9) sums of large sets exceed one, by at most the bound per integer."
  },
  {
   "property": "C30",
   "status": "partial",
   "theorems": [
    "Verif.Vct.Attn.C30_partial",
    "Verif.Vct.Attn.C30_violated"
   ],
   "note": "Violated for weights with scores beyond a million (C30_violated). C30_partial: causal for all weights and depths if the scores stay below 4e5, given that the exponential underflows to zero below -104 as in float32."
  },
  {
   "property": "C31",
   "status": "partial",
   "theorems": [
    "Verif.Vct.Memo.C31_partial",
    "Verif.Vct.Memo.C31_expectation",
    "Verif.Vct.Memo.C31_uncached",
    "Verif.Vct.Memo.C31_pscene_not_shared",
    "Verif.Vct.Memo.C31_violated"
   ],
   "note": "Violated: list/tuple/dict keys collapse, tensors are keyed by identity, a number can equal an identity (C31_violated). C31_partial: transparent with exact hit counts for all histories of plain arguments. C31_pscene_not_shared: the pipeline never reuses a P-scene."
  },
  {
   "property": "C32",
   "status": "partial",
   "theorems": [
    "Verif.Vct.Pipe.C32_window_partial",
    "Verif.Vct.Pipe.C32_agree",
    "Verif.Vct.Pipe.C32_contexts_partial",
    "Verif.Vct.Pipe.C32_contexts_content",
    "Verif.Vct.Pipe.C32_extract",
    "Verif.Vct.Pipe.C32_violated"
   ],
   "note": "C32_agree holds for all lengths. C32_window_partial for context_len >= 1, C32_contexts_partial for context_len 1 and 2. Violated otherwise (C32_violated): the pipeline does not pass context_len to its entropy model, and context_len 0 never truncates."
  },
  {
   "property": "C33",
   "status": "partial",
   "theorems": [
    "Verif.Vct.Pipe.C33_padding",
    "Verif.Vct.Pipe.C33_padding_keeps",
    "Verif.Vct.Pipe.C33_partial",
    "Verif.Vct.Pipe.C33_frames",
    "Verif.Vct.Pipe.C33_violated",
    "Verif.Vct.Pipe.C33_chunked"
   ],
   "note": "Violated for sizes up to 48 and 65..80: reflection padding raises (C33_violated). C33_partial: exactly the other sizes return, always with the input size. Chunking is transparent (C33_chunked)."
  },
  {
   "property": "C34",
   "status": "partial",
   "theorems": [
    "Verif.Train.C34_bounds",
    "Verif.Train.C34_decay",
    "Verif.Train.C34_ramp_partial",
    "Verif.Train.C34_rampConstCosine",
    "Verif.Train.C34_rampCosine_partial",
    "Verif.Train.C34_violated",
    "Verif.Train.C34_raises"
   ],
   "note": "Violated for ramps over half the horizon, T_max = ramp_len + 1, and RampCosine never reaching the minimum (C34_violated). Bounds, decay and the other schedules are proved. Real arithmetic."
  },
  {
   "property": "C35",
   "status": "partial",
   "theorems": [
    "Verif.Functional.C35_partial",
    "Verif.Functional.C35_returns_iff",
    "Verif.Functional.C35_violated"
   ],
   "note": "Violated: reflection padding raises when the padding needed reaches the image size (C35_violated). C35_returns_iff: exactly the other sizes return; C35_partial: the result is the smallest multiple, keeps the pixels and crops back."
  },
  {
   "property": "C36",
   "status": "proved",
   "theorems": [
    "Verif.Functional.C36_strictMono",
    "Verif.Functional.C36_integers",
    "Verif.Functional.C36_shift",
    "Verif.Functional.C36_near",
    "Verif.Functional.C36_inverse",
    "Verif.Functional.C36_conditional_mean",
    "Verif.Functional.SoftRoundAlpha.C36_alpha",
    "Verif.Functional.SoftRoundAlpha.C36_limit",
    "Verif.Functional.SoftRoundAlpha.C36_small"
   ],
   "note": "All clauses over exact real arithmetic; the code works in float32. Also the conditional-mean identity used by the code."
  },
  {
   "property": "C37",
   "status": "partial",
   "theorems": [
    "Verif.Functional.C37_ndtr",
    "Verif.Functional.C37_survival",
    "Verif.Functional.C37_log_ndtr_partial",
    "Verif.Functional.C37_logs_partial",
    "Verif.Functional.C37_violated",
    "Verif.Functional.C37_dtype",
    "Verif.Functional.C37_violated_double"
   ],
   "note": "ndtr clauses proved (C37_ndtr, C37_survival). Violated for log_ndtr below its cutoff, log_cdf of a uniform distribution outside its bounds and log_survival_function of any non-normal distribution (C37_violated); in double precision ndtr and log_ndtr are zero and minus infinity from 15 to 20 standard deviations below the mean, because ndtr casts to single precision (C37_violated_double); the rest is C37_log_ndtr_partial and C37_logs_partial. Exact real arithmetic, except in C37_violated_double, which models the rounding to single precision."
  },
  {
   "property": "C38",
   "status": "proved",
   "theorems": [
    "Verif.Functional.C38"
   ],
   "note": "Exact real arithmetic on both branches."
  },
  {
   "property": "C39",
   "status": "partial",
   "theorems": [
    "Verif.Functional.C39_partial",
    "Verif.Functional.C39_violated"
   ],
   "note": "Violated: the disconnected rule returns the input as gradient, and a float bound raises AttributeError in backward (C39_violated). C39_partial proves the forward clamp and the two other rules."
  },
  {
   "property": "C40",
   "status": "proved",
   "theorems": [
    "Verif.Functional.C40_sum",
    "Verif.Functional.C40_bits",
    "Verif.Functional.C40_reductions",
    "Verif.Functional.C40_unknown"
   ],
   "note": "Exact real arithmetic; unknown reductions raise."
  },
  {
   "property": "C41",
   "status": "proved",
   "theorems": [
    "Verif.Functional.C41"
   ],
   "note": "Exact real arithmetic."
  },
  {
   "property": "C42",
   "status": "proved",
   "theorems": [
    "Verif.Functional.C42_sectors",
    "Verif.Functional.C42_gamut",
    "Verif.Functional.C42_flow",
    "Verif.Functional.C42_direction",
    "Verif.Functional.C42_injective",
    "Verif.Functional.C42_onto",
    "Verif.Functional.C42_readable",
    "Verif.Functional.C42_black"
   ],
   "note": "Exact real arithmetic; the optical-flow conversion feeds valid HSV for every finite flow; hue is the direction, brightness the scaled length (C42_direction); injective where visible (C42_injective), onto (C42_onto); flows can be read off their pictures (C42_readable) except the shortest vectors, so that a field of equal lengths is all black (C42_black)."
  },
  {
   "property": "C43",
   "status": "partial",
   "theorems": [
    "Verif.Functional.Warp.C43_shift_partial",
    "Verif.Functional.Warp.C43_identity_partial",
    "Verif.Functional.Warp.C43_identity_small",
    "Verif.Functional.Warp.C43_range_partial",
    "Verif.Functional.Warp.C43_accepts",
    "Verif.Functional.Warp.C43_violated"
   ],
   "note": "Violated: with the default align_corners=False zero flow is not the identity for widths of at least 4, and bicubic sampling leaves the range (C43_violated). Proved with align_corners=True (shift, identity) and for bilinear and nearest (range)."
  },
  {
   "property": "C44",
   "status": "proved",
   "theorems": [
    "Verif.Functional.Flops.C44",
    "Verif.Functional.Flops.C44_history"
   ],
   "note": "The handler semantics of the counting library are taken from its documentation."
  },
  {
   "property": "C45",
   "status": "proved",
   "theorems": [
    "Verif.Functional.MsSsim.C45_identical",
    "Verif.Functional.MsSsim.C45_rejects",
    "Verif.Functional.MsSsim.C45_range",
    "Verif.Functional.MsSsim.C45_symm",
    "Verif.Functional.MsSsim.C45_window",
    "Verif.Functional.MsSsim.C45_unit",
    "Verif.Functional.MsSsim.C45_axes",
    "Verif.Functional.MsSsim.C45_value",
    "Verif.Functional.MsSsim.C45_defaults"
   ],
   "note": "Exact real arithmetic; also range, symmetry, unit of the pixels, exchange of the axes, and the value: the index of the paper, from a specification of its own."
  },
  {
   "property": "C46",
   "status": "partial",
   "theorems": [
    "Verif.Functional.C46_violated_double",
    "Verif.Layers.C46_prob",
    "Verif.Layers.C46_nonneg",
    "Verif.Layers.C46_sum",
    "Verif.Layers.C46_log_other_partial",
    "Verif.Layers.C46_log_normal_partial",
    "Verif.Layers.C46_violated"
   ],
   "note": "prob is proved in full. log_prob is violated for uniform base distributions (C46_violated); in double precision it is not a number from 15 to 20 standard deviations away from the mean of a normal distribution (C46_violated_double); in exact arithmetic it is proved for normal distributions inside the cut-off and for every other class where the distribution function is positive."
  },
  {
   "property": "C47",
   "status": "partial",
   "theorems": [
    "Verif.Layers.Vq.C47_nearest",
    "Verif.Layers.Vq.C47_direction",
    "Verif.Layers.Vq.C47_hits_partial",
    "Verif.Layers.Vq.C47_hits_each",
    "Verif.Layers.Vq.C47_violated"
   ],
   "note": "Violated: reset_hits clears nothing (C47_violated). Nearest entry, direction and hit counts over every history are proved."
  },
  {
   "property": "C48",
   "status": "proved",
   "theorems": [
    "Verif.Layers.Norm.C48_bounds",
    "Verif.Layers.Norm.C48_formula",
    "Verif.Layers.Norm.C48_fresh",
    "Verif.Layers.Norm.C48_default",
    "Verif.Layers.Norm.C48_saturates",
    "Verif.Layers.Norm.C48_history"
   ],
   "note": "Simplified GDN and inverse GDN at a pixel, over the reals, for every parameter state and every history of passes and optimiser steps."
  },
  {
   "property": "C49",
   "status": "proved",
   "theorems": [
    "Verif.Layers.Norm.C49_normalised",
    "Verif.Layers.Norm.C49_layer"
   ],
   "note": "ChannelNorm2D at a pixel, over the reals."
  },
  {
   "property": "C50",
   "status": "partial",
   "theorems": [
    "Verif.Layers.Entropy.C50_rejects_partial",
    "Verif.Layers.Entropy.C50_accepts_partial",
    "Verif.Layers.Entropy.C50_access",
    "Verif.Layers.Entropy.C50_violated"
   ],
   "note": "C50_violated: scalar prior shapes with maximum_cdf_size and unbatched priors raise; the two partial theorems list combinations that are rejected and accepted."
  },
  {
   "property": "C51",
   "status": "partial",
   "theorems": [
    "Verif.Models.Hific.C51_forward_partial",
    "Verif.Models.Hific.C51_partial",
    "Verif.Models.Hific.C51_returns_partial",
    "Verif.Models.Hific.C51_violated",
    "Verif.Models.Hific.C51_vqvae_partial"
   ],
   "note": "Geometry, size and range of the reconstruction for all networks with the layers sizes and all lossless coders; forward sizes; when compress returns. Violated for small images (reflection padding raises)."
  },
  {
   "property": "C52",
   "status": "proved",
   "theorems": [
    "Verif.Models.Hific.C52_mode",
    "Verif.Models.Hific.C52_forward",
    "Verif.Models.Hific.C52_coding",
    "Verif.Models.Hific.C52_switch",
    "Verif.Models.Hific.C52_coding_parts"
   ],
   "note": "For every history of moves, switches, updates and training: mode is the last accepted switch, forward and coding are accepted exactly in the right mode, devices and with tables."
  },
  {
   "property": "C53",
   "status": "proved",
   "theorems": [
    "Verif.Models.Hific.C53_partition",
    "Verif.Models.Hific.C53_dvc"
   ],
   "note": "For every list of named parameters; the first stage of the video project optimises the same model parameters and no quantiles."
  },
  {
   "property": "C54",
   "status": "proved",
   "theorems": [
    "Verif.Models.Hific.C54_freeze",
    "Verif.Models.Hific.C54_vqvae"
   ],
   "note": "For every history of freeze and train/eval calls and all constructor flags; the VQ-VAE variant at every forward."
  },
  {
   "property": "C55",
   "status": "partial",
   "theorems": [
    "Verif.Models.Dvc.C55_decoder_partial",
    "Verif.Models.Dvc.C55_count_partial",
    "Verif.Models.Dvc.C55_compensate",
    "Verif.Models.Dvc.C55_whole_partial",
    "Verif.Models.Dvc.C55_shapes_partial",
    "Verif.Models.Dvc.C55_violated"
   ],
   "note": "Decoder sizes proved for all sizes; compress/decompress agree exactly if the number of 8-pixel blocks is even in both directions; violated otherwise (witness full HD)."
  },
  {
   "property": "C56",
   "status": "proved",
   "theorems": [
    "Verif.Models.Dvc.C56_reconstruction",
    "Verif.Models.Dvc.C56_forward",
    "Verif.Models.Dvc.C56_no_drift",
    "Verif.Models.Dvc.C56_update"
   ],
   "note": "For lossless bottlenecks and arbitrary networks: reconstruction equals the prediction-based one of the encoder, over any sequence of frames."
  },
  {
   "property": "C57",
   "status": "partial",
   "theorems": [
    "Verif.Models.Unet.C57_factors",
    "Verif.Models.Unet.C57_partial",
    "Verif.Models.Unet.C57_violated",
    "Verif.Models.Unet.C57_conditional_partial"
   ],
   "note": "Exact factors for which the output resolution is right; violated for factor 2, 2^n and larger factors. Shapes only: instance normalisation raises where the deepest features have one position (C135_violated_small)."
  },
  {
   "property": "C58",
   "status": "partial",
   "theorems": [
    "Verif.Train.Patches.C58_patches",
    "Verif.Train.Patches.C58_partial",
    "Verif.Train.Patches.C58_contents_partial",
    "Verif.Train.Patches.C58_shifted",
    "Verif.Train.Patches.C58_rejects",
    "Verif.Train.Patches.C58_violated",
    "Verif.Train.Patches.C58_violated_shape"
   ],
   "note": "Proved for RGB images of equal shape (count, contents, every metric); violated for grey images (silently merged) and for predictions of another size (accepted with unequal counts)."
  },
  {
   "property": "C59",
   "status": "proved",
   "theorems": [
    "Verif.Train.Accum.C59_mean",
    "Verif.Train.Accum.C59_independent",
    "Verif.Train.Accum.C59_failed",
    "Verif.Train.Accum.C59_dists",
    "Verif.Train.Accum.C59_dists_rejects",
    "Verif.Train.Accum.C59_features"
   ],
   "note": "Over the MS-SSIM model itself: any replicas, histories with resets, any batching; also DISTS, and feature metrics."
  },
  {
   "property": "C60",
   "status": "partial",
   "theorems": [
    "Verif.Train.Rate.C60_schedule",
    "Verif.Train.Rate.C60_piecewise",
    "Verif.Train.Rate.C60_config",
    "Verif.Train.Rate.C60_usable_partial",
    "Verif.Train.Rate.C60_violated"
   ],
   "note": "Value, constant pieces and accepted configurations proved for all schedules; violated as far as unusable (unsorted) schedules should be rejected."
  },
  {
   "property": "C61",
   "status": "proved",
   "theorems": [
    "Verif.Train.Gan.C61_halves",
    "Verif.Train.Gan.C61_whole",
    "Verif.Train.Gan.C61_single",
    "Verif.Train.Gan.C61_generator",
    "Verif.Train.Gan.C61_discriminator",
    "Verif.Train.Gan.C61_quantile",
    "Verif.Train.Gan.C61_quantile_update",
    "Verif.Train.Gan.C61"
   ],
   "note": "All three phases of every training step in every run, from every state; halves of the batch."
  },
  {
   "property": "C62",
   "status": "partial",
   "theorems": [
    "Verif.Data.Frames.C62_vimeo_init",
    "Verif.Data.Frames.C62_vimeo_images_partial",
    "Verif.Data.Frames.C62_vimeo_index",
    "Verif.Data.Frames.C62_vimeo_videos",
    "Verif.Data.Frames.C62_violated",
    "Verif.Data.Frames.C62_uvg",
    "Verif.Data.Frames.C62_uvg_init",
    "Verif.Data.Frames.C62_uvg_refuses",
    "Verif.Data.Frames.C62_openimages",
    "Verif.Data.Frames.C62_openimages_sorted",
    "Verif.Data.Frames.C62_frames",
    "Verif.Data.Frames.C62_violated_clic"
   ],
   "note": "Indexing of frames and lengths proved for all data sets; violated: image mode without transform raises TypeError, and the CLIC video frames come in directory order."
  },
  {
   "property": "C63",
   "status": "partial",
   "theorems": [
    "Verif.Train.Gop.C63_training_partial",
    "Verif.Train.Gop.C63_validation_partial",
    "Verif.Train.Gop.C63_violated",
    "Verif.Train.Gop.C63_no_pframes"
   ],
   "note": "Sums proved for all numbers of frames, stages and networks; violated: validation drops the rate of the I-frame."
  },
  {
   "property": "C64",
   "status": "proved",
   "theorems": [
    "Verif.Diffusion.C64_tracking",
    "Verif.Diffusion.C64_rates",
    "Verif.Diffusion.C64_used",
    "Verif.Diffusion.C64_used_decoder",
    "Verif.Diffusion.C64_exhausted_limit"
   ],
   "note": "Telescoping over all steps; the reported rates for all histories. Limit (C64_exhausted_limit): a call that finds the message exhausted leaves the counters of the steps before it, so the step rates no longer add up after it."
  },
  {
   "property": "C65",
   "status": "proved",
   "theorems": [
    "Verif.Diffusion.C65_pmf"
   ],
   "note": "For every monotone distribution function with values in [0,1]."
  },
  {
   "property": "C66",
   "status": "partial",
   "theorems": [
    "Verif.Diffusion.C66_partial",
    "Verif.Diffusion.C66_mass_partial",
    "Verif.Diffusion.C66_violated"
   ],
   "note": "Violated for every data range of width other than 2, at every symbol (C66_violated); C66_partial and C66_mass_partial: width 2, which includes the default."
  },
  {
   "property": "C67",
   "status": "proved",
   "theorems": [
    "Verif.Functional.C67"
   ],
   "note": "Exact real arithmetic."
  },
  {
   "property": "C68",
   "status": "partial",
   "theorems": [
    "Verif.Functional.Tails.C68_accuracy",
    "Verif.Functional.Tails.C68_terminates_partial",
    "Verif.Functional.Tails.C68_icdf",
    "Verif.Functional.Tails.C68_lower_partial",
    "Verif.Functional.Tails.C68_violated"
   ],
   "note": "Violated: upper_tail never returns for classes without icdf, lower_tail never when the quantile is exactly zero (C68_violated). Accuracy of whatever is returned and termination of the search with a suitable start are proved."
  },
  {
   "property": "C69",
   "status": "partial",
   "theorems": [
    "Verif.Layers.Entropy.C69_range_partial",
    "Verif.Layers.Entropy.C69_tight_partial",
    "Verif.Layers.Entropy.C69_start_partial",
    "Verif.Layers.Entropy.C69_rows_partial",
    "Verif.Layers.Entropy.C69_violated"
   ],
   "note": "C69_violated: the rows are built along the sample axis and the minimum is clamped at zero; the partial theorems state the range and what the rows contain."
  },
  {
   "property": "C70",
   "status": "partial",
   "theorems": [
    "Verif.Layers.Entropy.C70_restore_partial",
    "Verif.Layers.Entropy.C70_violated"
   ],
   "note": "C70_violated: the empty buffers have other shapes than tables of any layer; partial: a state of equal shapes restores."
  },
  {
   "property": "C71",
   "status": "partial",
   "theorems": [
    "Verif.Layers.C71_partial",
    "Verif.Layers.C71_violated"
   ],
   "note": "Violated for every batch of distributions (C71_violated); proved for scalar distributions."
  },
  {
   "property": "C72",
   "status": "partial",
   "theorems": [
    "Verif.Layers.Vq.C72_bytes_partial",
    "Verif.Layers.Vq.C72_forward_partial",
    "Verif.Layers.Vq.C72_enough_partial",
    "Verif.Layers.Vq.C72_violated",
    "Verif.Layers.Vq.C72_metrics",
    "Verif.Layers.Vq.C72_unused"
   ],
   "note": "Violated: num_bytes rounds down (C72_violated). One more byte always suffices; the metrics part is proved."
  },
  {
   "property": "C73",
   "status": "proved",
   "theorems": [
    "Verif.Layers.Vq.C73_choice"
   ],
   "note": "Exact real arithmetic; the random draw is an arbitrary number in [0, 1)."
  },
  {
   "property": "C74",
   "status": "partial",
   "theorems": [
    "Verif.Layers.Entropy.C74_partial",
    "Verif.Layers.Entropy.C74_violated"
   ],
   "note": "C74_violated: IntTensor of a float tensor raises; partial: what integer inputs give."
  },
  {
   "property": "C75",
   "status": "proved",
   "theorems": [
    "Verif.Layers.Norm.C75_equivariant",
    "Verif.Layers.Norm.C75_weights",
    "Verif.Layers.Norm.C75_logits",
    "Verif.Layers.Norm.C75_formula"
   ],
   "note": "XCA.forward of one sample over the reals, dropout off."
  },
  {
   "property": "C76",
   "status": "partial",
   "theorems": [
    "Verif.Models.Hific.C76_partial",
    "Verif.Models.Hific.C76_violated"
   ],
   "note": "Holds for the first switch and forced updates; violated after any history by switch, training and switch (stale tables)."
  },
  {
   "property": "C77",
   "status": "partial",
   "theorems": [
    "Verif.Train.Gan.C77_violated",
    "Verif.Train.Gan.C77_partial"
   ],
   "note": "Violated: after any step the model takes no gradients and optimisers cannot be configured again; within one run the model stays trainable."
  },
  {
   "property": "C78",
   "status": "partial",
   "theorems": [
    "Verif.Data.Store.C78_partial",
    "Verif.Data.Store.C78_violated",
    "Verif.Data.Store.C78_violated_first",
    "Verif.Data.Store.C78_violated_again",
    "Verif.Data.Store.C78_violated_index"
   ],
   "note": "Proved if every video has one clip; violated otherwise: a loop yields as many clips as there are videos, a second loop yields nothing, and an index is ignored while a video is in progress."
  },
  {
   "property": "C79",
   "status": "partial",
   "theorems": [
    "Verif.Data.Store.C79_kodak_partial",
    "Verif.Data.Store.C79_kodak_refuses_partial",
    "Verif.Data.Store.C79_violated",
    "Verif.Data.Store.C79_violated_interrupted",
    "Verif.Data.Store.C79_clic_partial",
    "Verif.Data.Store.C79_clic_clean",
    "Verif.Data.Store.C79_violated_clic"
   ],
   "note": "Proved for fresh directories, and that no leftovers of the archives stay (C79_clic_clean); violated: force_download fails on an existing directory, an interrupted download blocks the next one, and a second download of the CLIC validation images raises."
  },
  {
   "property": "C80",
   "status": "partial",
   "theorems": [
    "Verif.Train.Gan.C80_violated",
    "Verif.Train.Gan.C80_violated_frozen",
    "Verif.Train.Gan.C80_partial"
   ],
   "note": "Violated: discriminators without context raise TypeError after the model was updated; a frozen bottleneck cannot be trained without discriminator. Proved for the other configurations."
  },
  {
   "property": "C81",
   "status": "partial",
   "theorems": [
    "Verif.Train.Gan.C81_partial",
    "Verif.Train.Gan.C81_violated",
    "Verif.Train.Gan.C81_target_partial"
   ],
   "note": "Proved for parameters frozen before the optimisers are made and for training without discriminator; violated for parameters frozen later."
  },
  {
   "property": "C82",
   "status": "proved",
   "theorems": [
    "Verif.Train.Rate.C82_bits",
    "Verif.Train.Rate.C82_loss",
    "Verif.Train.Rate.C82_nonneg"
   ],
   "note": "All likelihoods, batches, configurations, training steps (real arithmetic)."
  },
  {
   "property": "C83",
   "status": "partial",
   "theorems": [
    "Verif.Train.Psnr.C83_formula",
    "Verif.Train.Psnr.C83_invariant",
    "Verif.Train.Psnr.C83_monotone",
    "Verif.Train.Psnr.C83_violated",
    "Verif.Train.Psnr.C83_u8_partial"
   ],
   "note": "Proved for floating point images; violated for 8-bit numpy arrays, except differences below 16."
  },
  {
   "property": "C84",
   "status": "partial",
   "theorems": [
    "Verif.Train.Psnr.C84_violated",
    "Verif.Train.Psnr.C84_violated_example",
    "Verif.Train.Psnr.C84_partial",
    "Verif.Train.Psnr.C84_normalize_float",
    "Verif.Train.Psnr.C84_violated_normalize",
    "Verif.Train.Psnr.C84_violated_swav"
   ],
   "note": "Violated: KID ignores five arguments and refuses a documented one; normalize negates 8-bit images; the SwAV normalisation has a wrong constant."
  },
  {
   "property": "C85",
   "status": "proved",
   "theorems": [
    "Verif.Train.Loss.C85_bce",
    "Verif.Train.Loss.C85_formula",
    "Verif.Train.Loss.C85_scalar",
    "Verif.Train.Loss.C85_shapes",
    "Verif.Train.Loss.C85_chance",
    "Verif.Train.Loss.C85_monotone",
    "Verif.Train.Loss.C85_oasis",
    "Verif.Train.Loss.C85_oasis_rejects",
    "Verif.Train.Loss.C85_oasis_ignored",
    "Verif.Train.Loss.C85_oasis_two",
    "Verif.Train.Loss.C85_oasis_general"
   ],
   "note": "All logits, targets, shapes, classes (real arithmetic). Labels -1 and -101 are not refused: the latter are left out silently."
  },
  {
   "property": "C86",
   "status": "proved",
   "theorems": [
    "Verif.Train.Loss.C86_normalised",
    "Verif.Train.Loss.C86_lipschitz",
    "Verif.Train.Loss.C86_distance",
    "Verif.Train.Loss.C86_bounded",
    "Verif.Train.Loss.C86_eval",
    "Verif.Train.Loss.C86_losses",
    "Verif.Train.Loss.C86_mse"
   ],
   "note": "All networks, weights, images and histories of modes (real arithmetic); spatial=True is not modelled."
  },
  {
   "property": "C87",
   "status": "partial",
   "theorems": [
    "Verif.Train.Accum.C87_violated",
    "Verif.Train.Accum.C87_kid_partial",
    "Verif.Train.Accum.C87_single_partial"
   ],
   "note": "Violated for FID and FID-SwAV: with dist_reduce_fx=\"cat\" the synchronised state is a tensor, which torch.cat refuses. KID is proved up to the order of the features; single processes are proved for all three."
  },
  {
   "property": "C88",
   "status": "proved",
   "theorems": [
    "Verif.Script.Respace.C88_list",
    "Verif.Script.Respace.C88_list_rejects",
    "Verif.Script.Respace.C88_vlb",
    "Verif.Script.Respace.C88_vlb_rejects",
    "Verif.Script.Respace.C88_ddim",
    "Verif.Script.Respace.C88_ddim_one"
   ],
   "note": "All sizes; the accumulated floating point error of a position is arbitrary below 1/(2 T)."
  },
  {
   "property": "C89",
   "status": "partial",
   "theorems": [
    "Verif.Script.Resume.C89_files",
    "Verif.Script.Resume.C89_done_partial",
    "Verif.Script.Resume.C89_progress_partial",
    "Verif.Script.Resume.C89_lost_work_partial",
    "Verif.Script.Resume.C89_lost_check_partial",
    "Verif.Script.Resume.C89_torn_blocks",
    "Verif.Script.Resume.C89_violated",
    "Verif.Script.Resume.C89_violated_names"
   ],
   "note": "Safety of all complete files is proved for all histories. Violated: a crash inside np.savez tears the checkpoint and blocks every later start; names with more than six digits make a start choose an older checkpoint. Completion, bounded loss of work and completeness are proved without torn checkpoints and for numbers of samples that fit into the names."
  },
  {
   "property": "C90",
   "status": "partial",
   "theorems": [
    "Verif.Script.Resume.C90_violated",
    "Verif.Script.Resume.C90_partial"
   ],
   "note": "Violated: with more samples than in an earlier completed run the stale decode checkpoint is loaded and none of the new batches is checked. Proved for a constant number of samples."
  },
  {
   "property": "C91",
   "status": "partial",
   "theorems": [
    "Verif.Train.Loop.C91_batches_gan_partial",
    "Verif.Train.Loop.C91_batches_target_partial",
    "Verif.Train.Loop.C91_violated_unlimited",
    "Verif.Train.Loop.C91_switch_gan_partial",
    "Verif.Train.Loop.C91_switch_target_partial",
    "Verif.Train.Loop.C91_violated"
   ],
   "note": "The number of batches and the learning-rate schedules are proved. Violated: max_steps=-1 is multiplied by the number of optimizers and rejected; the rate schedules count optimizer steps, so they switch 2 or 3 times too early, and at different batches with and without the adversarial loss."
  },
  {
   "property": "C92",
   "status": "partial",
   "theorems": [
    "Verif.Train.Runs.C92_refuse",
    "Verif.Train.Runs.C92_overwrite_partial",
    "Verif.Train.Runs.C92_violated_overwrite",
    "Verif.Train.Runs.C92_resume_partial",
    "Verif.Train.Runs.C92_violated",
    "Verif.Train.Runs.C92_violated_witness",
    "Verif.Train.Runs.C92_violated_crash"
   ],
   "note": "Refusal is proved for all histories; starting anew for the image project; resuming for histories without overwriting. Violated: the video project ignores overwrite while resume_training is set (the default); after an overwriting run a resumed run loads the checkpoint of the run before; a crash in the first save makes the next run start anew without notice."
  },
  {
   "property": "C93",
   "status": "partial",
   "theorems": [
    "Verif.Data.Loaders.C93_positions",
    "Verif.Data.Loaders.C93_int_partial",
    "Verif.Data.Loaders.C93_val_partial",
    "Verif.Data.Loaders.C93_violated",
    "Verif.Data.Loaders.C93_violated_witness",
    "Verif.Data.Loaders.C93_pad",
    "Verif.Data.Loaders.C93_epochs_partial",
    "Verif.Data.Loaders.C93_violated_workers",
    "Verif.Data.Loaders.C93_construct"
   ],
   "note": "Proved for one number of samples, for validation, and for OpenImages with worker processes. Violated: with several numbers of samples a training batch raises unless all draws are equal; OpenImages training raises with the default of no workers under the pinned PyTorch."
  },
  {
   "property": "C94",
   "status": "proved",
   "theorems": [
    "Verif.Train.Keys.C94_strip",
    "Verif.Train.Keys.C94_load",
    "Verif.Train.Keys.C94_foreign",
    "Verif.Train.Keys.C94_complete"
   ],
   "note": "Attribute names are distinct and contain no dot, as PyTorch enforces."
  },
  {
   "property": "C95",
   "status": "partial",
   "theorems": [
    "Verif.Script.Cifar.C95_names",
    "Verif.Script.Cifar.C95_sound",
    "Verif.Script.Cifar.C95_overwrite_partial",
    "Verif.Script.Cifar.C95_complete_partial",
    "Verif.Script.Cifar.C95_violated",
    "Verif.Script.Cifar.C95_violated_witness"
   ],
   "note": "The first part is proved for all histories; completeness for --overwrite runs after any history, and for histories without kills. Violated: after a killed run no run without --overwrite changes the incomplete directory, though it ends normally."
  },
  {
   "property": "C96",
   "status": "partial",
   "theorems": [
    "Verif.Script.Vlb.C96_count",
    "Verif.Script.Vlb.C96_violated_dropping",
    "Verif.Script.Vlb.C96_total",
    "Verif.Script.Vlb.C96_terms",
    "Verif.Script.Vlb.C96_zero",
    "Verif.Script.Vlb.C96_sum",
    "Verif.Script.Vlb.C96_distinct_partial",
    "Verif.Script.Vlb.C96_violated_again"
   ],
   "note": "Count, total, terms and bound are proved. Distinctness only while the samples fit in the loader. Violated: setup announces that samples are dropped, but more are evaluated; images are evaluated again if more samples are asked for than the loader has; zero samples raise on saving."
  },
  {
   "property": "C97",
   "status": "partial",
   "theorems": [
    "Verif.Vct.Metrics.C97_losses",
    "Verif.Vct.Metrics.C97_weighted",
    "Verif.Vct.Metrics.C97_nonneg",
    "Verif.Vct.Metrics.C97_test_partial",
    "Verif.Vct.Metrics.C97_violated_single",
    "Verif.Vct.Metrics.C97_psnr_partial",
    "Verif.Vct.Metrics.C97_psnr_train_partial",
    "Verif.Vct.Metrics.C97_violated_psnr",
    "Verif.Vct.Metrics.C97_violated_arithmetic",
    "Verif.Vct.Metrics.C97_frames"
   ],
   "note": "Losses and rates are proved. The 8-bit PSNR is proved for reconstructions in [0,1] and torchmetrics versions that convert to float. Violated: single frames raise ZeroDivisionError in the test; unclamped reconstructions wrap in training and validation; torchmetrics versions with 8-bit arithmetic give an infinite PSNR for different frames."
  },
  {
   "property": "C98",
   "status": "partial",
   "theorems": [
    "Verif.Train.TestSets.C98_isolated",
    "Verif.Train.TestSets.C98_main_partial",
    "Verif.Train.TestSets.C98_violated_empty",
    "Verif.Train.TestSets.C98_violated_shipped",
    "Verif.Train.TestSets.C98_build",
    "Verif.Train.TestSets.C98_unnamed",
    "Verif.Train.TestSets.C98_violated_kodak",
    "Verif.Train.TestSets.C98_distances",
    "Verif.Train.TestSets.C98_hific_partial",
    "Verif.Train.TestSets.C98_violated_hific",
    "Verif.Train.TestSets.C98_validation",
    "Verif.Train.TestSets.C98_keys"
   ],
   "note": "Isolation is proved for all histories. Violated: the shipped configuration of test sets cannot be built (unknown split and misspelt class), so nothing is tested; sets without images are passed over silently; distances of Kodak are reported as 0; for images of different sizes the HiFiC distortion is not that of the reported error and LPIPS."
  },
  {
   "property": "C99",
   "status": "partial",
   "theorems": [
    "Verif.Train.LogCache.C99_key",
    "Verif.Train.LogCache.C99_sound_partial",
    "Verif.Train.LogCache.C99_violated_data",
    "Verif.Train.LogCache.C99_violated_crash",
    "Verif.Train.LogCache.C99_violated_race",
    "Verif.Train.LogCache.C99_alone_partial"
   ],
   "note": "Proved if configurations of the same class have the same data and SHA-256 does not collide. Violated: the key leaves out directory, image size and transforms; a process killed while writing makes every later one raise; of two processes that start together one can raise."
  },
  {
   "property": "C100",
   "status": "partial",
   "theorems": [
    "Verif.Models.VqVae.C100_build",
    "Verif.Models.VqVae.C100_eval",
    "Verif.Models.VqVae.C100_eval_small",
    "Verif.Models.VqVae.C100_train",
    "Verif.Models.VqVae.C100_train_partial",
    "Verif.Models.VqVae.C100_train_small",
    "Verif.Models.VqVae.C100_violated_train",
    "Verif.Models.VqVae.C100_project",
    "Verif.Models.VqVae.C100_attention",
    "Verif.Models.VqVae.C100_violated_attention",
    "Verif.Models.VqVae.C100_violated_single",
    "Verif.Models.VqVae.C100_violated_blocks"
   ],
   "note": "Proved in evaluation mode for all sizes whose padding can be reflected, and for the construction. Violated: in training mode the reconstruction is smaller than the image unless the factor divides the sizes; a single image with a latent of one pixel and 16 channels raises; without residual blocks nothing can be encoded although the constructor succeeds; attention differs between encoder and decoder if the factor does not divide the resolution."
  },
  {
   "property": "C101",
   "status": "partial",
   "theorems": [
    "Verif.Vct.C101_range",
    "Verif.Vct.C101_weights",
    "Verif.Vct.C101_sum_partial",
    "Verif.Vct.C101_sum_iff",
    "Verif.Vct.C101_lookup",
    "Verif.Vct.C101_sorted",
    "Verif.Vct.C101_violated_default",
    "Verif.Vct.C101_violated_estimate",
    "Verif.Vct.C101_estimate_partial",
    "Verif.Vct.C101_build_indexes_partial",
    "Verif.Vct.C101_violated_build_indexes"
   ],
   "note": "Rows, ranges and symbol weights proved. Violated: the escape symbol has twice the mass of the lower tail, so the weights sum to one exactly for means that are multiples of 1/2 (two of the default 100); the reported likelihood rounds the scale index while coding truncates it, and does not quantise the mean; build_indexes maps scales above the grid to the smallest scale."
  },
  {
   "property": "C102",
   "status": "partial",
   "theorems": [
    "Verif.Vct.Hist.C102_compress",
    "Verif.Vct.Hist.C102_roundtrip",
    "Verif.Vct.Hist.C102_bits_partial",
    "Verif.Vct.Hist.C102_violated_bits",
    "Verif.Vct.Hist.C102_forward_partial",
    "Verif.Vct.Hist.C102_violated_forward",
    "Verif.Vct.Hist.C102_violated_history",
    "Verif.Vct.Hist.C102_mode",
    "Verif.Vct.Hist.C102_pipeline_mode",
    "Verif.Vct.Hist.C102_tables",
    "Verif.Vct.Hist.C102_test",
    "Verif.Vct.Hist.C102_violated_test",
    "Verif.Vct.Hist.C102_violated_mode",
    "Verif.Vct.Hist.C102_construct_elic",
    "Verif.Vct.Hist.C102_construct_elic_fits",
    "Verif.Vct.Hist.C102_violated_channels"
   ],
   "note": "Proved for compression, test steps, training passes, and evaluation of a model that was never asked to compress. Violated: after compress_video (even one that raised) or a completed test step, every evaluation of two or more frames raises; the first frame has no string and its bits are an estimate; compressing leaves the pipeline in evaluation mode; ConvGDNSynthesis always reports 192 channels."
  },
  {
   "property": "C103",
   "status": "partial",
   "theorems": [
    "Verif.Train.Stages.C103_order",
    "Verif.Train.Stages.C103_violated_order",
    "Verif.Train.Stages.C103_parts",
    "Verif.Train.Stages.C103_resume",
    "Verif.Train.Stages.C103_completes",
    "Verif.Train.Stages.C103_overwrite",
    "Verif.Train.Stages.C103_refuse",
    "Verif.Train.Stages.C103_mosaic",
    "Verif.Train.Stages.C103_append",
    "Verif.Train.Stages.C103_log_partial",
    "Verif.Train.Stages.C103_violated_log"
   ],
   "note": "Proved for restarts, overwriting, refusing, the parts and mosaics. Violated: if the module is on the device of the images kept for logging (CPU training), the kept first frame is overwritten and the i-th validation logs it compressed i+1 times; stage names are sorted as strings, so a tenth stage would run before the second."
  },
  {
   "property": "C104",
   "status": "partial",
   "theorems": [
    "Verif.Script.TrainResume.C104_weights",
    "Verif.Script.TrainResume.C104_others",
    "Verif.Script.TrainResume.C104_crash",
    "Verif.Script.TrainResume.C104_state_partial",
    "Verif.Script.TrainResume.C104_lost_work_partial",
    "Verif.Script.TrainResume.C104_violated_state",
    "Verif.Script.TrainResume.C104_violated_zero",
    "Verif.Script.TrainResume.C104_violated_torn",
    "Verif.Script.TrainResume.C104_torn_reachable",
    "Verif.Script.TrainResume.C104_violated_million",
    "Verif.Script.TrainResume.C104_violated_explicit",
    "Verif.Script.TrainResume.C104_sync"
   ],
   "note": "Proved for the weights in all histories, for averages and optimizer that each is of a saved state, a copy of the weights or new, for deaths that they destroy at most one file, and for the whole state and the lost work while numbers are below a million, the number is not 0 and no process died between files. Violated: a death between the model file and the averages makes later starts continue with averages replaced by the weights and a new optimizer, silently; so does number 0; a torn last file makes every start fail; no start continues from a number above 999999; a given resume_checkpoint file is used by every restart whatever was saved since."
  },
  {
   "property": "C105",
   "status": "partial",
   "theorems": [
    "Verif.Models.HificValues.C105_coding_partial",
    "Verif.Models.HificValues.C105_exact_partial",
    "Verif.Models.HificValues.C105_frozen",
    "Verif.Models.HificValues.C105_training_grid",
    "Verif.Models.HificValues.C105_training_partial",
    "Verif.Models.HificValues.C105_violated_range",
    "Verif.Models.HificValues.C105_violated_rate"
   ],
   "note": "Proved for every image that compress accepts: the decoded image is forward's image of the padded image, clamped and cropped; hyper-latent, latent and all likelihoods are those of the receiver's values; with a frozen bottleneck training reports exactly what evaluation reports; in training the generator sees quantised values. Violated: forward does not clamp; without freezing the 'quantised' hyper-likelihood in training is that of the rounded noisy values, up to one step off."
  },
  {
   "property": "C106",
   "status": "partial",
   "theorems": [
    "Verif.Train.DvcLoss.C106_coding_partial",
    "Verif.Train.DvcLoss.C106_logged_partial",
    "Verif.Train.DvcLoss.C106_single",
    "Verif.Train.DvcLoss.C106_stages",
    "Verif.Train.DvcLoss.C106_nonneg",
    "Verif.Train.DvcLoss.C106_pyramid",
    "Verif.Train.DvcLoss.C106_stage1",
    "Verif.Train.DvcLoss.C106_violated"
   ],
   "note": "Proved for all stages; the agreement with coding is proved for scenes whose estimates stay in [0,1], and for the first P-frame in any case (decoding is at least as good). Violated: the reference of the next frame is clamped in decoding but not in training and validation, so from the second P-frame on validation can report a smaller error than coding gives."
  },
  {
   "property": "C107",
   "status": "partial",
   "theorems": [
    "Verif.Models.Zoo.C107_weights_partial",
    "Verif.Models.Zoo.C107_returns_partial",
    "Verif.Models.Zoo.C107_new",
    "Verif.Models.Zoo.C107_files",
    "Verif.Models.Zoo.C107_violated"
   ],
   "note": "Proved for all histories in which nothing is published meanwhile and no connection is closed early, for all 15 models. Violated: values that are true but not True (1) silently give random weights; other arguments are ignored; a connection closed early leaves a file that makes every later call raise; published updates are not seen by users with a cached file."
  },
  {
   "property": "C108",
   "status": "partial",
   "theorems": [
    "Verif.Train.Build.C108_start",
    "Verif.Train.Build.C108_module_partial",
    "Verif.Train.Build.C108_gan_partial",
    "Verif.Train.Build.C108_target_partial",
    "Verif.Train.Build.C108_violated",
    "Verif.Train.Build.C108_projector",
    "Verif.Train.Build.C108_violated_readme"
   ],
   "note": "Proved for weights from a file and for new models, with and without discriminator. Violated for weights from torch.hub: the network of the hub replaces the configured one, so the whole section model (sizes and frozen parts) has no effect; the fine-tuning command of the README asks for a frozen encoder and bottleneck and trains both."
  },
  {
   "property": "C109",
   "status": "partial",
   "theorems": [
    "Verif.Models.DvcNets.C109_encoder_partial",
    "Verif.Models.DvcNets.C109_channels",
    "Verif.Models.DvcNets.C109_decoder",
    "Verif.Models.DvcNets.C109_sizes",
    "Verif.Models.DvcNets.C109_nosizes_partial",
    "Verif.Models.DvcNets.C109_flow_partial",
    "Verif.Models.DvcNets.C109_violated_flow",
    "Verif.Models.DvcNets.C109_compensation_partial",
    "Verif.Models.DvcNets.C109_violated_compensation",
    "Verif.Models.DvcNets.C109_parts_partial",
    "Verif.Models.DvcNets.C109_default",
    "Verif.Models.DvcNets.C109_violated_grey",
    "Verif.Models.DvcNets.C109_violated_norm",
    "Verif.Models.DvcNets.C109_parameters",
    "Verif.Models.DvcNets.C109_parameters_decoder",
    "Verif.Models.DvcNets.C109_parameters_estimator"
   ],
   "note": "Proved for every setting with odd kernels. Violated for even kernels (the flow estimator raises, motion compensation returns three more rows and columns), for one-channel frames with the default parts, and for batch normalisation in training when a layer reaches one pixel."
  },
  {
   "property": "C110",
   "status": "partial",
   "theorems": [
    "Verif.Vct.Settings.C110_construct",
    "Verif.Vct.Settings.C110_process_partial",
    "Verif.Vct.Settings.C110_code_partial",
    "Verif.Vct.Settings.C110_default",
    "Verif.Vct.Settings.C110_violated_windows",
    "Verif.Vct.Settings.C110_violated_context",
    "Verif.Vct.Settings.C110_violated_shape",
    "Verif.Vct.Settings.C110_context_partial"
   ],
   "note": "C110_construct characterises the accepted settings; C110_code_partial says exactly when an accepted setting codes a latent and gives the shapes; C110_default for the default setting. Violated: windows 7/4 and 6/4 are accepted but can code no latent, context lengths from 4 on cannot code with fewer previous latents, and a context of another shape is accepted if batch times windows agrees."
  },
  {
   "property": "C111",
   "status": "partial",
   "theorems": [
    "Verif.Vct.Depth.C111_evaluation",
    "Verif.Vct.Depth.C111_sample",
    "Verif.Vct.Depth.C111_kept",
    "Verif.Vct.Depth.C111_mean",
    "Verif.Vct.Depth.C111_block",
    "Verif.Vct.Depth.C111_dropped",
    "Verif.Vct.Depth.C111_default",
    "Verif.Vct.Depth.C111_violated_one",
    "Verif.Vct.Depth.C111_violated_device"
   ],
   "note": "Proved over the reals for rates below one on the CPU (C111_sample, C111_kept, C111_mean, C111_block, C111_dropped). Violated at rate one, which is accepted and divides by zero (C111_violated_one), and away from the CPU, where the draws are on another device (C111_violated_device)."
  },
  {
   "property": "C112",
   "status": "partial",
   "theorems": [
    "Verif.Script.EvalFolder.C112_report",
    "Verif.Script.EvalFolder.C112_exact",
    "Verif.Script.EvalFolder.C112_order",
    "Verif.Script.EvalFolder.C112_other",
    "Verif.Script.EvalFolder.C112_violated_empty",
    "Verif.Script.EvalFolder.C112_violated_small",
    "Verif.Script.EvalFolder.C112_rate_partial",
    "Verif.Script.EvalFolder.C112_violated_rate"
   ],
   "note": "C112_report gives every reported value, C112_exact the exact condition for a report, C112_order and C112_other the independence. Violated: ZeroDivisionError without PNG images, no report at all as soon as one image is smaller than a patch, and the rate is the mean of the images' rates (equal to that of the set only for images of one size). Real numbers for floats; torchmetrics' LPIPS and FID modelled as sums of arbitrary network outputs."
  },
  {
   "property": "C113",
   "status": "partial",
   "theorems": [
    "Verif.Layers.Entropy.Queries.C113_settings",
    "Verif.Layers.Entropy.Queries.C113_tables",
    "Verif.Layers.Entropy.Queries.C113_prior_partial",
    "Verif.Layers.Entropy.Queries.C113_violated_prior",
    "Verif.Layers.Entropy.Queries.C113_violated_dtype",
    "Verif.Layers.Entropy.Queries.C113_check",
    "Verif.Layers.Entropy.Queries.C113_violated_check"
   ],
   "note": "Proved for settings, shapes, tables (C113_settings, C113_tables), the prior of compressible layers (C113_prior_partial) and the exact condition of the check (C113_check). Violated: a layer that is not compressible drops the prior it was given and raises AttributeError, a layer with a prior always reports float32, and the zero tables of a layer still to be restored pass the check."
  },
  {
   "property": "C114",
   "status": "partial",
   "theorems": [
    "Verif.Data.Clips.C114_sizes",
    "Verif.Data.Clips.C114_train",
    "Verif.Data.Clips.C114_val",
    "Verif.Data.Clips.C114_mixed",
    "Verif.Data.Clips.C114_dvc_partial",
    "Verif.Data.Clips.C114_violated_range",
    "Verif.Data.Clips.C114_frames",
    "Verif.Data.Clips.C114_uvg_partial",
    "Verif.Data.Clips.C114_violated_normalize",
    "Verif.Data.Clips.C114_containers",
    "Verif.Data.Clips.C114_violated_labels"
   ],
   "note": "Proved for the training and validation batches (C114_train, C114_val, C114_sizes), the deep video module (C114_dvc_partial, C114_frames), UVG without normalisation (C114_uvg_partial) and the containers (C114_containers). Violated: values reach 1 although documented below 1, UVG with normalize=True raises for every image, and the Kinetics container refuses its annotated labels. Interpolation is an arbitrary function."
  },
  {
   "property": "C115",
   "status": "partial",
   "theorems": [
    "Verif.Layers.Noisy.C115_sample",
    "Verif.Layers.Noisy.C115_density",
    "Verif.Layers.Noisy.C115_mean",
    "Verif.Layers.Noisy.C115_violated_variance",
    "Verif.Layers.Noisy.C115_violated_cdf",
    "Verif.Layers.Noisy.C115_cdf_partial",
    "Verif.Layers.Noisy.C115_violated_expand",
    "Verif.Layers.Noisy.C115_violated_support",
    "Verif.Layers.Noisy.C115_violated_entropy"
   ],
   "note": "Proved for every base distribution: samples have the law of base plus noise (C115_sample), prob is their density (C115_density), the mean is theirs (C115_mean); C115_cdf_partial says what cdf would have to return. Violated for every base distribution with a variance: the variance is too small by 1/12, cdf differs somewhere, expand loses the noise; the reported entropy of noisy normal distributions of small scale is negative though that of samples never is; and samples leave the reported support. One element of the batch is modelled; shapes are C71."
  },
  {
   "property": "C116",
   "status": "partial",
   "theorems": [
    "Verif.Data.Images.C116_train",
    "Verif.Data.Images.C116_val_partial",
    "Verif.Data.Images.C116_violated_stretch",
    "Verif.Data.Images.C116_violated_example"
   ],
   "note": "Proved for training (C116_train) and for validation with one number as size (C116_val_partial). Violated for a size given as a list of height and width, as the constructor annotates it: validation images are stretched (C116_violated_stretch). Interpolation is an arbitrary function."
  },
  {
   "property": "C117",
   "status": "partial",
   "theorems": [
    "Verif.Train.VctRun.C117_applied",
    "Verif.Train.VctRun.C117_follow_partial",
    "Verif.Train.VctRun.C117_violated_epochs",
    "Verif.Train.VctRun.C117_bounds",
    "Verif.Train.VctRun.C117_violated_short",
    "Verif.Train.VctRun.C117_violated_minimum",
    "Verif.Train.VctRun.C117_violated_cosine",
    "Verif.Train.VctRun.C117_ramp_partial"
   ],
   "note": "Bounds are proved for all schedules and epoch lengths; the rate per step is proved for epochs that are multiples of the interval. Violated: shorter epochs never apply the schedule; runs under twenty intervals raise; the minimum is zero (floor division of the rate) and the last interval learns nothing; the cosine horizon counts steps instead of intervals. Lightning's rule for applying schedules is trusted as modelled."
  },
  {
   "property": "C118",
   "status": "partial",
   "theorems": [
    "Verif.Script.RateFiles.C118_range",
    "Verif.Script.RateFiles.C118_mean_partial",
    "Verif.Script.RateFiles.C118_violated_weights",
    "Verif.Script.RateFiles.C118_violated_mean",
    "Verif.Script.RateFiles.C118_violated_resume",
    "Verif.Script.RateFiles.C118_violated_missing"
   ],
   "note": "Minimum and maximum enclose the rate of the stream after every history; the mean is right if all batches cost the same. Violated: the mean averages the rates of the growing stream, so early batches count most; after a restart the files cover the later batches only; a crash after the last checkpoint leaves a completed run without the files forever."
  },
  {
   "property": "C119",
   "status": "partial",
   "theorems": [
    "Verif.Layers.LatentTree.C119_frame",
    "Verif.Layers.LatentTree.C119_determined_partial",
    "Verif.Layers.LatentTree.C119_same",
    "Verif.Layers.LatentTree.C119_scale",
    "Verif.Layers.LatentTree.C119_violated_argument",
    "Verif.Layers.LatentTree.C119_violated_float"
   ],
   "note": "Proved by induction on the nesting in exact arithmetic; other records and other fields never change, also in calls that raise. Violated: with float32 rounding of the straight-through estimator two pixels with the same index get different latents; a projection overwrites the latent of its argument, and a second call with the same record raises."
  },
  {
   "property": "C120",
   "status": "partial",
   "theorems": [
    "Verif.Vct.C120_values",
    "Verif.Vct.C120_likelihoods_partial",
    "Verif.Vct.C120_training",
    "Verif.Vct.C120_rate",
    "Verif.Vct.C120_violated"
   ],
   "note": "Values agree for all tensors (C120_values); training density and rate bounds proved. Violated (C120_violated): forward rounds the scale index and keeps the mean continuous, compress truncates both, so the reported likelihood is not that of the table row. C120_likelihoods_partial: the reported Gaussian is that of the row or the next scale, with a mean at most one bin further."
  },
  {
   "property": "C121",
   "status": "partial",
   "theorems": [
    "Verif.Vct.C121_scene_partial",
    "Verif.Vct.C121_video_partial",
    "Verif.Vct.C121_violated"
   ],
   "note": "C121_video_partial: same reconstructions for videos of any length without values half way between two integers, by induction over scenes; C121_scene_partial: latents agree for every network, features for causal ones. Missing: ties, for which C121_violated gives a witness."
  },
  {
   "property": "C122",
   "status": "proved",
   "theorems": [
    "Verif.Diffusion.C122_rate",
    "Verif.Diffusion.C122_exact",
    "Verif.Diffusion.C122_back",
    "Verif.Diffusion.C122_mean",
    "Verif.Diffusion.C122_dataset",
    "Verif.Diffusion.C122_reported"
   ],
   "note": "For an entropy coder that spends exactly -log2 of the mass of a symbol (craystack is external); the model of the latents is written down separately (levels, approx, joint). A prefix coder meets all hypotheses."
  },
  {
   "property": "C123",
   "status": "proved",
   "theorems": [
    "Verif.Vct.Online.C123_online",
    "Verif.Vct.Online.C123_forward",
    "Verif.Vct.Online.C123_hits",
    "Verif.Vct.Online.C123_plain"
   ],
   "note": "Generators as suspended states with the two ends of tee, cache of C31 with keys of identities, adversarial allocator that only respects what the cache and the running call hold. C123_hits: only the first scene's result is ever reused. Networks are functions of values, tensors are not modified in place."
  },
  {
   "property": "C124",
   "status": "partial",
   "theorems": [
    "Verif.Diffusion.Gauss.C124_create",
    "Verif.Diffusion.Gauss.C124_schedule",
    "Verif.Diffusion.Gauss.C124_process",
    "Verif.Diffusion.Gauss.C124_positive",
    "Verif.Diffusion.Gauss.C124_log_partial",
    "Verif.Diffusion.Gauss.C124_violated_small",
    "Verif.Diffusion.Gauss.C124_exact",
    "Verif.Diffusion.Gauss.C124_prior",
    "Verif.Diffusion.Gauss.C124_time",
    "Verif.Diffusion.Gauss.C124_creates",
    "Verif.Diffusion.Gauss.C124_betas",
    "Verif.Diffusion.Gauss.C124_variances",
    "Verif.Diffusion.Gauss.C124_indices"
   ],
   "note": "Law of the latents, positivity, exact networks, time and types proved; improved_diffusion is outside of the repository, its formulas are written down in the model and trusted; latents are real numbers, their discretisation into bins is C122. Violated: with sigma_small (and no learned variance) and the default use_log_variance=False, the data is coded with a standard deviation of zero, that is of clip_stdd, whatever the network says; with use_log_variance it is positive."
  },
  {
   "property": "C125",
   "status": "proved",
   "theorems": [
    "Verif.Train.ImageGrad.C125_value",
    "Verif.Train.ImageGrad.C125_generator",
    "Verif.Train.ImageGrad.C125_routing",
    "Verif.Train.ImageGrad.C125_discriminator",
    "Verif.Train.ImageGrad.C125_vq",
    "Verif.Train.ImageGrad.C125_dead"
   ],
   "note": "The chain rule of PyTorch's autograd, round having derivative zero and quantize_ste of CompressAI are trusted. The derivative of the whole loss is for differentiable networks and losses; who gets gradients from what holds for any derivatives. The bottlenecks are in training mode."
  },
  {
   "property": "C126",
   "status": "proved",
   "theorems": [
    "Verif.Vct.Grad.C126_gradient",
    "Verif.Vct.Grad.C126_reach",
    "Verif.Vct.Grad.C126_loss",
    "Verif.Vct.Grad.C126_first_not_taught"
   ],
   "note": "The chain rule of autograd is trusted; the likelihood of the bottleneck (with its bounds) is one operation with a derivative; patching is copying of elements (C23). C126_first_not_taught shows that the exception of the first frame is real."
  },
  {
   "property": "C127",
   "status": "proved",
   "theorems": [
    "Verif.Train.DvcGrad.C127_gradient",
    "Verif.Train.DvcGrad.C127_updates",
    "Verif.Train.DvcGrad.C127_routing",
    "Verif.Train.DvcGrad.C127_rates"
   ],
   "note": "The chain rule of autograd and the noise of CompressAI's entropy bottleneck in training mode are trusted; quantiles are left out (C106)."
  },
  {
   "property": "C128",
   "status": "proved",
   "theorems": [
    "Verif.Layers.GdnTrain.C128_parameters",
    "Verif.Layers.GdnTrain.C128_image",
    "Verif.Layers.GdnTrain.C128_projected",
    "Verif.Layers.GdnTrain.C128_evaluations",
    "Verif.Layers.GdnTrain.C128_range",
    "Verif.Layers.GdnTrain.C128_clamp_backward"
   ],
   "note": "PyTorch's backward passes of division, product, convolution and absolute value are written out in the model."
  },
  {
   "property": "C129",
   "status": "partial",
   "theorems": [
    "Verif.Functional.Lpips.C129_arguments",
    "Verif.Functional.Lpips.C129_reductions",
    "Verif.Functional.Lpips.C129_distance",
    "Verif.Functional.Lpips.C129_calibrated_partial",
    "Verif.Functional.Lpips.C129_violated_average",
    "Verif.Functional.Lpips.C129_violated_version",
    "Verif.Functional.Lpips.C129_violated_device",
    "Verif.Functional.Lpips.C129_broadcast"
   ],
   "note": "Violated: without calibration the layers are added, not averaged; the version is not ignored then (it switches the scaling of the input, and unknown versions are refused); the network stays on the CPU, so images on another device raise. The lpips package is modelled as released in 0.1.4."
  },
  {
   "property": "C130",
   "status": "partial",
   "theorems": [
    "Verif.Train.DvcOptim.C130_construction",
    "Verif.Train.DvcOptim.C130_violated_documented",
    "Verif.Train.DvcOptim.C130_violated_forward",
    "Verif.Train.DvcOptim.C130_stage_forward",
    "Verif.Train.DvcOptim.C130_optimisers",
    "Verif.Train.DvcOptim.C130_refused",
    "Verif.Train.DvcOptim.C130_violated_pair",
    "Verif.Train.DvcOptim.C130_rate",
    "Verif.Train.DvcOptim.C130_constant",
    "Verif.Train.DvcOptim.C130_violated_zero"
   ],
   "note": "Proved: which arguments are accepted, which parameters each optimiser has, the rate of every optimiser step of every history of starts (settings changed between starts have no effect), constant rates without a schedule. Violated: the documented stage 4_total is refused (C130_violated_documented); calling the module always raises (C130_violated_forward); a schedule given as the documented pair always raises (C130_violated_pair); a step size of zero is accepted and the first batch dies (C130_violated_zero)."
  },
  {
   "property": "C131",
   "status": "partial",
   "theorems": [
    "Verif.Data.Ranks.C131_epoch",
    "Verif.Data.Ranks.C131_seed_partial",
    "Verif.Data.Ranks.C131_orders",
    "Verif.Data.Ranks.C131_violated",
    "Verif.Data.Ranks.C131_violated_steps",
    "Verif.Data.Ranks.C131_violated_seed",
    "Verif.Data.Ranks.C131_violated_seed_witness",
    "Verif.Data.Ranks.C131_vimeo",
    "Verif.Data.Ranks.C131_values",
    "Verif.Data.Ranks.C131_normalize"
   ],
   "note": "Proved: every iteration of every process delivers every clip once (C131_epoch); positive seeds are reproducible (C131_seed_partial); the devices share the epochs of the Vimeo module (C131_vimeo); the order of every iteration, with and without workers and seeds (C131_orders); sizes and values (C131_values, C131_normalize). Violated for the Kinetics module, the default: every device delivers every clip in every epoch (C131_violated), with a positive seed (the default) or without workers all devices deliver the same clips in every step (C131_violated_steps), and the seed 0 is ignored (C131_violated_seed). Sampling of the libraries is modelled after their sources; equal numbers of CPU draws in all processes are trusted."
  },
  {
   "property": "C132",
   "status": "proved",
   "theorems": [
    "Verif.Models.HificNet.C132_encoder",
    "Verif.Models.HificNet.C132_latents",
    "Verif.Models.HificNet.C132_pixels",
    "Verif.Models.HificNet.C132_batches",
    "Verif.Models.HificNet.C132_tiles",
    "Verif.Models.HificNet.C132_seams"
   ],
   "note": "Proved on the full networks with their values (convolutions with zero padding, transposed convolutions, channel normalisation, residual blocks), for all weights over the reals: C132_encoder, C132_latents, C132_pixels, with the corollaries C132_batches and C132_tiles. C132_seams shows that tiles without a margin do not fit. The entropy coders are lossless by assumption, as in C105; floating-point effects of different batch and frame sizes are not modelled."
  },
  {
   "property": "C133",
   "status": "proved",
   "theorems": [
    "Verif.Vct.Net.C133_pixels",
    "Verif.Vct.Net.C133_rate",
    "Verif.Vct.Net.C133_size",
    "Verif.Vct.Net.C133_frames",
    "Verif.Vct.Net.C133_parts",
    "Verif.Vct.Net.C133_windows",
    "Verif.Vct.Net.C133_ties"
   ],
   "note": "Proved on the full networks with their values over the reals; the transformers are arbitrary functions of the tokens of a window of the two previous latents and of its own: C133_pixels, C133_rate, C133_size, with the corollaries C133_frames and C133_parts. C133_windows ties the windows to the patcher. C133_ties shows that the hypothesis on ties is needed. Floating-point effects of different batch and frame sizes are not modelled."
  },
  {
   "property": "C134",
   "status": "proved",
   "theorems": [
    "Verif.Models.VqVaeNet.C134_batch",
    "Verif.Models.VqVaeNet.C134_receiver",
    "Verif.Models.VqVaeNet.C134_processed",
    "Verif.Models.VqVaeNet.C134_project",
    "Verif.Models.VqVaeNet.C134_global"
   ],
   "note": "Values of all layers for all weights, over real numbers, dropout off. Group normalisation raises for a single value per group (C100_violated_single): then one batch is not processed at all, and (a) says nothing about it."
  },
  {
   "property": "C135",
   "status": "partial",
   "theorems": [
    "Verif.Models.UnetNet.C135_values",
    "Verif.Models.UnetNet.C135_conditional",
    "Verif.Models.UnetNet.C135_residual_partial",
    "Verif.Models.UnetNet.C135_violated_skips",
    "Verif.Models.UnetNet.C135_batch_partial",
    "Verif.Models.UnetNet.C135_reach_partial",
    "Verif.Models.UnetNet.C135_violated_shortcut",
    "Verif.Models.UnetNet.C135_violated_batch",
    "Verif.Models.UnetNet.C135_violated_reach",
    "Verif.Models.UnetNet.C135_violated_small",
    "Verif.Models.UnetNet.C135_layers",
    "Verif.Models.UnetNet.C135_instance",
    "Verif.Models.UnetNet.C135_batchnorm",
    "Verif.Models.UnetNet.C135_context",
    "Verif.Models.UnetNet.C135_context_small",
    "Verif.Models.UnetNet.C135_names"
   ],
   "note": "(a) holds. (b) holds with batch and instance normalisation, is violated with the default identity and with spectral normalisation. (c) is violated: no features but the deepest reach the way up. (d) holds except with batch normalisation in training. (e) holds except with instance normalisation and batch normalisation in training; the radius is exact arithmetic in the numbers of levels. (f) is violated with instance normalisation where the deepest features have one position. Real arithmetic; spectral normalisation is in the weights."
  },
  {
   "property": "C136",
   "status": "partial",
   "theorems": [
    "Verif.Models.DvcValues.C136_batch_partial",
    "Verif.Models.DvcValues.C136_strings",
    "Verif.Models.DvcValues.C136_decoded",
    "Verif.Models.DvcValues.C136_coding_partial",
    "Verif.Models.DvcValues.C136_coded_partial",
    "Verif.Models.DvcValues.C136_default_partial",
    "Verif.Models.DvcValues.C136_pairs",
    "Verif.Models.DvcValues.C136_outputs",
    "Verif.Models.DvcValues.C136_violated_flow",
    "Verif.Models.DvcValues.C136_violated_residual",
    "Verif.Models.DvcValues.C136_violated_batch",
    "Verif.Models.DvcValues.C136_convolution",
    "Verif.Models.DvcValues.C136_transposed",
    "Verif.Models.DvcValues.C136_gdn",
    "Verif.Models.DvcValues.C136_batchNorm",
    "Verif.Models.DvcValues.C136_relu",
    "Verif.Models.DvcValues.C136_bilinear",
    "Verif.Models.DvcValues.C136_nearest",
    "Verif.Models.DvcValues.C136_concatenation",
    "Verif.Models.DvcValues.C136_flow_sum",
    "Verif.Models.DvcValues.C136_compensation",
    "Verif.Models.DvcValues.C136_layers",
    "Verif.Models.DvcValues.C136_encoder_layers",
    "Verif.Models.DvcValues.C136_decoder_layers",
    "Verif.Models.DvcValues.C136_warp"
   ],
   "note": "(a) holds in evaluation and, with GDN (the default), in training; with use_gdn=False the latents of a frame depend on the other frames of the batch in training. (b) holds where the last logged sizes are even (for the default model: the eighths of height and width, rounded up); otherwise decompress asks for another latent, C55. (c) and (d) hold. (e) is violated: both are returned after coding. Layers, resizing, flow and nested compensation are also stated in explicit terms. Real arithmetic; kernels odd and strides two in (b)."
  },
  {
   "property": "C137",
   "status": "proved",
   "theorems": [
    "Verif.Train.Shown.C137_mosaics",
    "Verif.Train.Shown.C137_frames",
    "Verif.Train.Shown.C137_grid",
    "Verif.Train.Shown.C137_illm",
    "Verif.Train.Shown.C137_vct",
    "Verif.Train.Shown.C137_vct_empty",
    "Verif.Train.Shown.C137_append"
   ],
   "note": "C137_mosaics, C137_frames (no or too few P-frames), C137_grid, C137_illm, C137_vct. The networks are arbitrary functions; make_grid and cat are modelled from the libraries. That the deep video callback may overwrite its own clips on the CPU is part of C103."
  },
  {
   "property": "C138",
   "status": "proved",
   "theorems": [
    "Verif.AC.C138_bytes",
    "Verif.AC.C138_prefix",
    "Verif.AC.C138_streams",
    "Verif.AC.C138_kraft",
    "Verif.AC.C138_average",
    "Verif.AC.C138_table"
   ],
   "note": "C138_bytes, C138_prefix, C138_streams, C138_kraft (from Mathlib's Kraft-McMillan inequality), C138_average, C138_table."
  },
  {
   "property": "C139",
   "status": "proved",
   "theorems": [
    "Verif.Train.Validation.C139_target",
    "Verif.Train.Validation.C139_gan",
    "Verif.Train.Validation.C139_splits",
    "Verif.Train.Validation.C139_splits_gan",
    "Verif.Train.Validation.C139_rates"
   ],
   "note": "Images of one size; the losses of a batch are means over its images. Lightning's average over batches and devices is modelled from its source (2.0); the copies that a distributed sampler adds are in C93, the quality metrics in C98."
  },
  {
   "property": "C140",
   "status": "proved",
   "theorems": [
    "Verif.Train.Validation.C140_validation",
    "Verif.Train.Validation.C140_test",
    "Verif.Train.Validation.C140_test_stops",
    "Verif.Train.Validation.C140_test_total"
   ],
   "note": "PSNR values are finite inputs (C97 has what they are and where they fail); Lightning's average over batches and devices is modelled from its source."
  },
  {
   "property": "C141",
   "status": "partial",
   "theorems": [
    "Verif.Data.Listing.C141_download",
    "Verif.Data.Listing.C141_repaired",
    "Verif.Data.Listing.C141_violated_race",
    "Verif.Data.Listing.C141_violated_again",
    "Verif.Data.Listing.C141_images",
    "Verif.Data.Listing.C141_frames_partial",
    "Verif.Data.Listing.C141_violated_frames",
    "Verif.Data.Listing.C141_newest_partial",
    "Verif.Data.Listing.C141_number",
    "Verif.Data.Listing.C141_violated_newest"
   ],
   "note": "Proved for images, and for downloads of archives without a common directory. Violated: frames of a CLIC video come in the order of the listing; among checkpoints with the same step the first listed is taken; archives with a common new directory race in makedirs; download=True downloads again. Proved instead: frames are in order if the listing is, the checkpoint is unique if steps are distinct. A write of a file is one step; entries for directories in archives are left out."
  },
  {
   "property": "C142",
   "status": "partial",
   "theorems": [
    "Verif.Script.Plots.C142_divide",
    "Verif.Script.Plots.C142_log",
    "Verif.Script.Plots.C142_violated_merge",
    "Verif.Script.Plots.C142_plot",
    "Verif.Script.Plots.C142_plot_line",
    "Verif.Script.Plots.C142_violated_shape",
    "Verif.Script.Plots.C142_violated_band"
   ],
   "note": "Division is proved; entries are proved for keys without a slash, as all keys of the scripts; plots are proved with the mean in the range and the deviation at most half the range. Violated: keys that differ in _ and / only are merged; data of the documented shape are averaged over the steps (callers pass the transposed shape); the band of the deviation can leave the range."
  },
  {
   "property": "C143",
   "status": "proved",
   "theorems": [
    "Verif.Rans.C143_suffix",
    "Verif.Rans.C143_prefix",
    "Verif.Rans.C143_streams",
    "Verif.Rans.C143_next",
    "Verif.Rans.C143_kraft",
    "Verif.Rans.C143_average",
    "Verif.Rans.C143_table"
   ],
   "note": "For all messages with the stated room. Adaptive models need a state in which decoding of every message of the set can start; fixed tables have it."
  },
  {
   "property": "C144",
   "status": "partial",
   "theorems": [
    "Verif.Functional.Gradients.C144_ndtr",
    "Verif.Functional.Gradients.C144_log_ndtr_partial",
    "Verif.Functional.Gradients.C144_log_prob_partial",
    "Verif.Functional.Gradients.C144_prob",
    "Verif.Functional.Gradients.C144_prob_finite",
    "Verif.Functional.Gradients.C144_violated_zero",
    "Verif.Functional.Gradients.C144_violated_tail",
    "Verif.Functional.Gradients.C144_violated_log_prob",
    "Verif.Functional.Gradients.C144_log_expm1"
   ],
   "note": "Right in exact arithmetic: ndtr and prob everywhere (prob finite also in single precision), log_ndtr at all rational arguments but zero and the cutoff, log_prob within 10 or 20 standard deviations when no end of the interval is the mean, log_expm1 for all positive arguments. Violated at the mean, and in single precision in the tails and for standard deviations up to 1/12. Gradients are not rounded in the model."
  },
  {
   "property": "C145",
   "status": "partial",
   "theorems": [
    "Verif.Functional.Gradients.C145_soft_round",
    "Verif.Functional.Gradients.C145_inverse_partial",
    "Verif.Functional.Gradients.C145_violated",
    "Verif.Functional.Gradients.C145_violated_single"
   ],
   "note": "soft_round fully in exact arithmetic; the inverse and the conditional mean in exact arithmetic, violated in single precision at integers for temperatures from 19 on. Gradients and the other operations are not rounded in the model."
  },
  {
   "property": "C146",
   "status": "proved",
   "theorems": [
    "Verif.Functional.MsSsimGrad.C146_gradient",
    "Verif.Functional.MsSsimGrad.C146_reductions",
    "Verif.Functional.MsSsimGrad.C146_rejects",
    "Verif.Functional.MsSsimGrad.C146_flat",
    "Verif.Functional.MsSsimGrad.C146_identical"
   ],
   "note": "Real numbers for floating point numbers; infinities and NaN in the backward pass are modelled. Where a used comparison is exactly zero only finiteness is claimed: the index has no derivative there."
  },
  {
   "property": "C147",
   "status": "partial",
   "theorems": [
    "Verif.Functional.Warp.C147_flow",
    "Verif.Functional.Warp.C147_sided",
    "Verif.Functional.Warp.C147_outside",
    "Verif.Functional.Warp.C147_violated_reflection",
    "Verif.Functional.Warp.C147_violated_border",
    "Verif.Functional.Warp.C147_slope",
    "Verif.Functional.Warp.C147_inside",
    "Verif.Functional.Warp.C147_image"
   ],
   "note": "Derivatives proved (C147_flow, C147_sided, C147_image); inside, at zero flow too, the gradient follows the slope of the image (C147_slope, C147_inside). All three paddings are covered. Violated at the border (C147_violated_border, C147_violated_reflection, C147_outside). The backward pass of grid_sample is library code, modelled from torch 2.0.1; the other interpolation modes are not modelled."
  },
  {
   "property": "C148",
   "status": "partial",
   "theorems": [
    "Verif.Models.Projector.C148_projector_partial",
    "Verif.Models.Projector.C148_model_partial",
    "Verif.Models.Projector.C148_frozen",
    "Verif.Models.Projector.C148_counts",
    "Verif.Models.Projector.C148_violated_saved",
    "Verif.Models.Projector.C148_violated_argument",
    "Verif.Models.Projector.C148_violated_shared"
   ],
   "note": "C148_projector_partial: the projector answers with the indices of the image as long as the VQ-VAE is not put into training mode after the projector was made or its train() was called. C148_model_partial: results of the VQ-VAE in evaluation mode do not depend on what was called before. C148_counts: exactly what a call changes. C148_frozen: which parts take gradients and are in evaluation mode, for every history. Violated: C148_violated_shared, C148_violated_argument, C148_violated_saved. Encoder and decoder are arbitrary functions."
  },
  {
   "property": "C149",
   "status": "partial",
   "theorems": [
    "Verif.Layers.GdnBijective.C149_gdn",
    "Verif.Layers.GdnBijective.C149_inverse",
    "Verif.Layers.GdnBijective.C149_onto",
    "Verif.Layers.GdnBijective.C149_violated_inverse"
   ],
   "note": "C149_gdn, C149_inverse, C149_onto in exact arithmetic. Violated: C149_violated_inverse (the outputs of a GDN layer are bounded, those of an inverse layer on bounded values too)."
  },
  {
   "property": "C150",
   "status": "proved",
   "theorems": [
    "Verif.AC.C150_order",
    "Verif.AC.C150_sort",
    "Verif.AC.C150_table",
    "Verif.AC.C150_beginning"
   ],
   "note": "C150_order, C150_sort, C150_table, C150_beginning, under the hypotheses of C01 (codable messages, room of 3 n + 1 bytes)."
  },
  {
   "property": "C151",
   "status": "partial",
   "theorems": [
    "Verif.Rans.C151_decode_partial",
    "Verif.Rans.C151_encode_partial",
    "Verif.Rans.C151_replace",
    "Verif.Rans.C151_violated_decode",
    "Verif.Rans.C151_violated_encode",
    "Verif.Rans.C151_table_partial"
   ],
   "note": "C151_decode_partial, C151_table_partial, C151_encode_partial: the steps fit if a byte is put after the heads of what decode returned, or taken out of what encode returned. C151_replace holds in full. C151_violated_decode and C151_violated_encode: with the bytes as they are, wrong rows are returned without an error."
  },
  {
   "property": "C152",
   "status": "partial",
   "theorems": [
    "Verif.Models.Restore.C152_exact",
    "Verif.Models.Restore.C152_autoencoder",
    "Verif.Models.Restore.C152_plain_partial",
    "Verif.Models.Restore.C152_violated",
    "Verif.Models.Restore.C152_recover",
    "Verif.Models.Restore.C152_checkpoint",
    "Verif.Models.Restore.C152_prepared",
    "Verif.Models.Restore.C152_loaded",
    "Verif.Models.Restore.C152_repair",
    "Verif.Models.Restore.C152_violated_mixture"
   ],
   "note": "C152_autoencoder: holds in full for the autoencoders. C152_exact: no kind of model ever returns from loading with anything but the saved model. C152_plain_partial: DVC and VCTPipeline are restored if their tables were never computed; C152_violated: never otherwise. C152_recover, C152_repair, C152_prepared, C152_checkpoint, C152_loaded: what the failed call leaves and how to get the right tables. C152_violated_mixture: a failed load in a model with tables leaves a mixture of old and new tables that an unforced update keeps."
  },
  {
   "property": "C153",
   "status": "partial",
   "theorems": [
    "Verif.Vct.C153_input",
    "Verif.Vct.C153_scale_partial",
    "Verif.Vct.C153_violated_zero",
    "Verif.Vct.C153_largest",
    "Verif.Vct.C153_opposite",
    "Verif.Vct.C153_mean_partial",
    "Verif.Vct.C153_nonzero",
    "Verif.Vct.C153_violated_mean",
    "Verif.Vct.C153_tail",
    "Verif.Vct.C153_towards"
   ],
   "note": "C153_input: in full for the latent above the likelihood bound; C153_tail, C153_towards: below it. C153_scale_partial: the scale, except at exactly zero, where the gradient is half of the derivative (C153_violated_zero); C153_largest: above the largest scale. C153_mean_partial: the mean, except in the last bin of the table, where the rate is constant and the gradient is not zero (C153_violated_mean, with C153_nonzero). C153_opposite: the gradients of mean and latent are always opposite. Over the reals; backward rules of PyTorch and compressai are transcribed."
  },
  {
   "property": "C154",
   "status": "proved",
   "theorems": [
    "Verif.Layers.Vq.C154_value",
    "Verif.Layers.Vq.C154_codebook",
    "Verif.Layers.Vq.C154_descent",
    "Verif.Layers.Vq.C154_latent",
    "Verif.Layers.Vq.C154_separate",
    "Verif.Layers.Vq.C154_unused",
    "Verif.Layers.Vq.C154_norm",
    "Verif.Layers.Vq.C154_commitment_step",
    "Verif.Layers.Vq.C154_embedding_step"
   ],
   "note": "C154_value, C154_codebook, C154_descent, C154_latent, C154_separate, C154_unused, C154_norm, C154_commitment_step, C154_embedding_step. Over the reals, deterministic choice of entries (probabilistic=False); backward rules of PyTorch are transcribed."
  },
  {
   "property": "C155",
   "status": "proved",
   "theorems": [
    "Verif.Train.LossGrad.C155_bce_generator",
    "Verif.Train.LossGrad.C155_bce_discriminator",
    "Verif.Train.LossGrad.C155_bce_saturation",
    "Verif.Train.LossGrad.C155_oasis_generator",
    "Verif.Train.LossGrad.C155_oasis_discriminator",
    "Verif.Train.LossGrad.C155_oasis_balance",
    "Verif.Train.LossGrad.C155_distortion",
    "Verif.Train.LossGrad.C155_stable",
    "Verif.Train.LossGrad.C155_rate"
   ],
   "note": "C155_bce_generator, C155_bce_discriminator, C155_bce_saturation, C155_oasis_generator, C155_oasis_discriminator, C155_oasis_balance, C155_distortion, C155_stable, C155_rate. Over the reals; backward rules of PyTorch are transcribed; the LPIPS network is arbitrary with a backward pass assumed right at the image; reference images take no gradient."
  },
  {
   "property": "C156",
   "status": "partial",
   "theorems": [
    "Verif.Vct.BnSettings.C156_construct",
    "Verif.Vct.BnSettings.C156_scaler",
    "Verif.Vct.BnSettings.C156_update",
    "Verif.Vct.BnSettings.C156_usable_partial",
    "Verif.Vct.BnSettings.C156_forward",
    "Verif.Vct.BnSettings.C156_agrees",
    "Verif.Vct.BnSettings.C156_violated",
    "Verif.Vct.BnSettings.C156_violated_training"
   ],
   "note": "C156_construct, C156_scaler, C156_update, C156_forward, C156_agrees, C156_usable_partial (a mean and at least two scales); violated for one scale (C156_violated: accepted, all likelihoods NaN, no tables) and for no scale (C156_violated_training: trains, cannot code). NaN and infinities after a division by zero are one value; tail masses outside (0, 1) and likelihoods without any mean are not covered."
  },
  {
   "property": "C157",
   "status": "proved",
   "theorems": [
    "Verif.Train.Clip.C157_norm",
    "Verif.Train.Clip.C157_value",
    "Verif.Train.Clip.C157_settings",
    "Verif.Train.Clip.C157_gan",
    "Verif.Train.Clip.C157_gan_raises",
    "Verif.Train.Clip.C157_target",
    "Verif.Train.Clip.C157_frames",
    "Verif.Train.Clip.C157_not_positive"
   ],
   "note": "C157_norm, C157_value, C157_settings, C157_gan, C157_gan_raises, C157_target, C157_frames, C157_not_positive. Over the reals; clip_gradients of Lightning 2.0.1 and clip_grad_norm_, clip_grad_value_ of PyTorch 2.0.1 are transcribed; losses, weights and optimiser rules are arbitrary."
  }
 ]
}
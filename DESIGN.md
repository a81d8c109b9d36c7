# Formal model of facebookresearch/NeuralCompression in Lean 4

`properties.jsonl` lists the properties, `MANIFEST.json` says which theorem
answers which property, `seeded/LOG.jsonl` records the deliberate-bug
experiments.  This file says what is modelled, how, and what is trusted.

## Trusted base

* Lean 4.33.0's kernel.  No `sorry`, no own axioms, no `native_decide` /
  `bv_decide`.  Theorems depend at most on `propext`, `Classical.choice` and
  `Quot.sound`.
* The transcription: that each Lean definition does what the Python lines cited
  in its comment do.  Simplifications are stated in those comments.
* The meaning of the libraries underneath (JAX, PyTorch, numpy), as far as used:
  - JAX `index_update` outside the array is dropped, gather outside the array is
    clamped, `dynamic_slice`/`dynamic_update_slice` starts are clamped,
    `sort_key_val` is stable, `argmin`/`argmax` return the first extremum.
  - unsigned arithmetic wraps (`% 2^32`, `% 256`); int32/int64 counters are
    unbounded naturals/integers.
  - float64 division is modelled bit-exactly (round to nearest even, 53 bits)
    where a property depends on it (C05); elsewhere real-valued tensor code is
    modelled over the real numbers, so floating point rounding is NOT covered.
    `Functional/SinglePrecision.lean` models the rounding to single precision (nearest,
    ties to even, subnormal numbers) that `ndtr` does, with any error functions that are
    accurate to one unit in the last place (C37, C46).
  - neural networks are arbitrary functions (universally quantified), never
    particular weights.

## Layout of `lean/Verif`

| directory | code modelled |
|---|---|
| `AC` | `projects/jax_entropy_coders/jax_arithmetic_coder.py` |
| `Rans` | `projects/jax_entropy_coders/craystack/*` |
| `Diffusion` | `projects/bits_back_diffusion/bits_back_diffusion/codec.py` |
| `Vct` | `projects/torch_vct/*` |
| `Functional` | `neuralcompression/functional/*` |
| `Layers` | `neuralcompression/layers/*`, `distributions/*` |
| `Models` | `neuralcompression/models/*` |
| `Train` | `projects/illm/*`, `projects/deep_video_compression/*`, `optim`, `metrics`, `loss_fn` |
| `Data` | `neuralcompression/data/*`, VCT data modules |
| `Script` | `projects/bits_back_diffusion/*.py`, its data set scripts |

Each directory has model files (definitions with `/repo` citations), lemma
files, and `Props*.lean` files with the property theorems, their small
specifications and non-vacuity `example`s.

## Plan per property

| id | model | proof |
|---|---|---|
| C01 | encoder and decoder functions over naturals with explicit wrap, `while_loop` with fuel, arbitrary stateful CDF model | absolute code interval nested under renormalisation; backward induction over the message |
| C02 | same decoder | the round trip is proved for every byte string that starts with the code bits |
| C03 | `decode` over a list of byte strings with zero padding | from C02 and prefix stability of the decode loop |
| C04 | same | invariant on (low, high); every loop iteration doubles the width |
| C05 | round-to-nearest-even 53 bit quotient | error < 1/span |
| C06 | same | product invariant over the message |
| C07 | same | proved with the corrected bound as `_partial`; the code's own check is off by one: witness |
| C08 | `Rans/Model`: heads as lists, tail as list + limit, stable sort of lanes | per-lane arithmetic + shared stack lemma |
| C09 | same | the same lemmas in the other direction; bytes of the tail as a list |
| C10 | history of operations | invariant by induction |
| C11 | `encode`/`decode` of the coder module on one batch element | induction on the message, LIFO |
| C12 | `argmin(v >= cdf) - 1` | list induction |
| C13 | byte (de)serialisation | arithmetic + list splitting |
| C14 | same | `_partial` under sufficient capacity; witnesses for the silent failures |
| C15 | abstract codec laws + the concrete bits-back composition | composition |
| C16 | `allow_empty_pop` clip | `_partial` + witness of the loss |
| C17 | same: `peek` | direct from the definitions of push and peek |
| C18 | same | product bound over one push, induction over the message |
| C19 | `Diffusion/Model`: BitsBackCodec as fold of primitive reversible operations | induction on the number of steps |
| C20 | same, histories of encode and decode | induction on the history, stack invariant |
| C21 | state dict as association list | refuted by a witness, `_partial` for the other fields |
| C22 | validation order | case analysis |
| C23 | `Vct/Patcher`: tensors as index functions | index arithmetic (division with remainder) |
| C24 | same | index arithmetic for the offsets of both window sizes |
| C25 | encode/decode loops over an arbitrary network | invariant on the shared buffer |
| C26 | half-even rounding over the reals | witness, `_partial` away from ties |
| C27 | `Vct/Bottleneck`: scale index over the reals | direct; the constant that is added twice as witness |
| C28 | same, index clipping and table lookup | integer arithmetic of floors, division with remainder |
| C29 | the Gaussian measure of Mathlib | telescoping, countable additivity |
| C30 | the attention blocks with the code's additive mask (`-1e6`) and an arbitrary float-like exponential | induction on the layers; witness for scores above a million |
| C31 | cache as association list, keys as computed by the code | history invariant; witnesses for key collisions |
| C32 | `Vct/Pipeline`: list of latents per frame, truncation | induction over the frames; witness for the lengths that fail |
| C33 | same, sizes and padding | arithmetic of sizes; exact set of sizes that return |
| C34 | real arithmetic with cosine | monotonicity of cosine |
| C35 | `Functional/Pad`: reflection padding with its size check | arithmetic modulo the factor; witness for small images |
| C36 | soft rounding over the reals with tanh and atanh of Mathlib | monotonicity on each unit interval, joined at integers; inverse by composition; in alpha by the derivative of a quotient of hyperbolic tangents and an exponential bound |
| C37 | normal CDF with erf defined by the Gaussian integral; branches as in the code | symmetry of erf; asymptotic series compared with the integral; witnesses for the branches that are wrong |
| C38 | both branches over the reals | logarithm identities and an error bound of the large branch |
| C39 | forward clamp and the three gradient rules as functions of input, bound and gradient | case analysis; witness for the disconnected rule |
| C40 | sums of logarithms, reductions as in the code | logarithm of a product, change of base |
| C41 | multiplication, rounding, clamping over the reals | case analysis at the bounds |
| C42 | `hsv_to_rgb` and the flow colours over the reals | case analysis on the six sectors; bounds of the angle and magnitude; linear arithmetic over pairs of sectors for injectivity, polar form for reading flows |
| C43 | grid sampling with all modes and paddings, sizes and type checks | arithmetic of grid coordinates; convex combinations; witnesses |
| C44 | `Functional/Flops`: the trace as list of operator calls, tables of handlers as dictionaries, fvcore from its documentation | induction over the trace and over the history of calls |
| C45 | `Functional/MsSsim`: windows, convolutions, scales, exceptions over the reals | induction over the scales; Cauchy–Schwarz for the bounds; equality with the index of the paper, specified separately |
| C46 | `Layers/UniformNoise` over an arbitrary CDF and survival function | case analysis; telescoping sum over integers; single and double precision cutoffs as witnesses |
| C47 | `Layers/Vq`: distances, first minimum, hit counters | argmin by induction; induction over the history of calls |
| C48 | `Layers/Norm`: reparametrised parameters under arbitrary optimiser steps | lower bounds survive every history |
| C49 | same: mean and variance over the channels | algebra of the variance |
| C50 | `Layers/Entropy`: the order of the checks of the constructor | case analysis; witnesses for combinations that should be accepted |
| C51 | `Models/Hific`: sizes of all layers, arbitrary networks, arbitrary lossless coder | size arithmetic, composition with the coder's round trip |
| C52 | same, mode and table flags as state | case analysis, induction over the calls |
| C53 | parameter names with flags | membership and disjointness of the filtered lists |
| C54 | same, histories of train and freeze calls | invariant by induction |
| C55 | `Models/Dvc`: sizes through the down- and upsampling layers, recorded sizes | arithmetic of halves; witness for odd numbers of blocks |
| C56 | same, arbitrary networks, scenes as lists of frames | induction over the frames: encoder and decoder references are equal |
| C57 | `Models/Unet`: sizes of blocks and strides | arithmetic of powers of two; witnesses for the other factors |
| C58 | `Train/Patches`: unfolding as index functions, views of tensors | index arithmetic; witness for grey images |
| C59 | `Train/Accum`: states, updates, resets and merges over the model of MS-SSIM | induction over histories, sums over permutations |
| C60 | `Train/Rate`: search over the schedule | induction over the list of steps; witness for unsorted schedules |
| C61 | `Train/Gan`: all parameters, gradients and optimiser calls as state | case analysis per phase |
| C62 | the directory as a function, paths as lists | index arithmetic; refuted by witness |
| C63 | `Train/Gop`: folds over the frames of a group with arbitrary networks | induction over the frames; witness for the dropped I-frame |
| C64 | byte counters of the diffusion codec | telescoping sums over the history |
| C65 | observation bins with the exact probabilities of each bin | telescoping of the CDF differences, positivity |
| C66 | same, bin edges as real numbers | real arithmetic; witness for every width other than two |
| C67 | real arithmetic | rounding lemmas |
| C68 | the search loop as an inductive relation (no bound on the iterations), over the reals | invariants of the iteration; divergence by an invariant that keeps the counter at zero |
| C69 | table construction with shapes as the code computes them | equations for what the rows contain; refuted by witness |
| C70 | buffers with shapes, loading compares shapes | refuted by witness; equal shapes restore |
| C71 | torch broadcasting on index lists | index arithmetic; refuted by witness |
| C72 | bytes from the number of codes; perplexity over finite sums | entropy inequality; witness for rounding down |
| C73 | cumulative sums over the weights and a uniform draw | length of the interval of each choice |
| C74 | element types of torch tensors as a small enumeration | refuted by witness |
| C75 | attention over the reals, arbitrary parameters | reindexing sums by a permutation, Cauchy–Schwarz |
| C76 | the model's modes, devices and tables as a state machine with a counter for the parameters | refuted for every history |
| C77 | `Train/Gan`: gradient flags, gradients, values and schedules of all parameters as state, losses and update rules arbitrary | case analysis per phase, induction over steps |
| C78 | `Data/Store`: state machine of the iterator over videos with clips | induction over the clips; refuted by witness |
| C79 | same: state of the download directory | case analysis; refuted by witness histories |
| C80 | `Train/Gan` | case analysis per configuration; exceptions as values |
| C81 | `Train/Gan` | invariant of the frozen parameters over all steps; refuted for parameters frozen later |
| C82 | `Train/Rate`: bits from likelihoods, weighted loss | logarithms |
| C83 | `Train/Psnr`: real arithmetic; 8-bit arithmetic modulo 256 | logarithms; refuted by witness |
| C84 | same: which arguments reach the metric | refuted by witness; equations for the others |
| C85 | `Train/Loss`: real arithmetic, arbitrary networks | convexity, monotonicity of the logistic function |
| C86 | same, trees of modules for the mode | Cauchy–Schwarz, induction on module trees |
| C87 | states of `torchmetrics` before and after synchronisation | refuted for every history; permutation of the interleaved lists |
| C88 | exact positions plus bounded rounding errors | strict monotonicity of the rounded positions, induction over the sections |
| C89 | the run directory and the process as a transition system with crashes at every point; file names as strings of digits | invariants over all histories; refuted by witness histories |
| C90 | same | invariant for a constant number of samples; refuted by a history of two runs |
| C91 | the training step of C77–C81 iterated, Lightning's counter of optimizer steps | induction over the batches; refuted for every schedule |
| C92 | directory, process and crashes as a transition system; Lightning's naming of `last` checkpoints | invariants over all histories; refuted by witness histories |
| C93 | clips as lists of frames, random draws as inputs | index arithmetic, induction over the clips; refuted for all unequal draws |
| C94 | state dicts as lists of keys (strings) and values | string prefixes, induction over the submodules |
| C95 | output directories as maps from names to complete or incomplete files; runs as lists of steps, killed after any number | invariant over all histories; name injectivity from decimal digits; refuted for all histories after a kill |
| C96 | the loop on any number of processes, samples with abstract terms, the loader of improved-diffusion by positions | induction over the iterations; index arithmetic; refuted by witnesses |
| C97 | likelihoods and frames as functions to the reals, 8-bit conversion with wrapping | algebra, Jensen for the PSNR; refuted by witnesses |
| C98 | metric states as sums, counts and feature lists; the hooks of Lightning; any history of tests and validations | the state after a reset does not depend on the history; induction over the batches; refuted by the shipped configuration and witnesses |
| C99 | cache files (absent, torn, complete) and processes as a transition system with any interleaving; texts of integer lists | invariants over all histories; injectivity of the hashed text; refuted for all histories after a crash |
| C100 | every layer as a partial function of shapes, built by the constructors; encoder, decoder, padding and cropping | induction over blocks and levels with the invariant that all sizes stay at least those of the latent; refuted for training mode, single pixels, no blocks |
| C101 | the rows over the reals with the quantile function of the normal distribution (defined as a generalised inverse); the flattened grid; the indexes of evaluation and coding | continuity and strict monotonicity of the distribution function; telescoping sums of bin masses; refuted by an exact criterion |
| C102 | the flags of module and pipeline as a state machine over arbitrary histories; shapes of likelihoods per scene; constructor checks | induction over histories, invariants of the flags; refuted after every compression |
| C103 | stages as functions on the weights of the parts they hold, checkpoints per stage, processes that die after any number of steps, histories of starts | invariant of the last stage with a checkpoint, locality of the stages; refuted for the images of CPU training |
| C104 | transition system of starts, updates, single file writes and deaths; file names with six digits | invariants over histories; refuted for deaths between files, torn files, number 0, a million steps, given checkpoints |
| C105 | forward, compress and decompress of HiFiC on latents with values, quantisation around means and medians with ties to even | refinement: both paths compute the same quantised values; refuted for clamping and for the rate of the hyper-latent in training |
| C106 | losses of all stages, flow pyramid as a fold over levels; bottlenecks as functions, probabilities as functions of their output | induction over the frames of a scene and the levels of the pyramid, on top of C56 and C63; refuted for estimates out of range |
| C107 | the functions of zoo and hub as tables, URLs as characters, server, cache and connection as state | invariant of the cache over all histories, injectivity of file names; refuted for truthy values, short transfers and new publications |
| C108 | configuration, hub and files as data; building as a function to a module; training as histories over the model of C61 | case analysis of the build, parameters outside all optimisers are fixed by every event (induction over histories); refuted for the hub, with the README configuration as witness |
| C109 | the layer lists the constructors build and the shape semantics of torch's layers | induction over layers and levels, rounding lemmas for strided and transposed convolutions; refuted for even kernels, grey frames and batch normalisation of one pixel |
| C110 | the constructor's checks and the shapes through patcher, embeddings, attention, transformer and heads | exact condition by evaluation and induction over layers; refuted for odd and non-fitting windows, long contexts and contexts of another shape |
| C111 | one element, one layer and a chain of skip connections, draws as parameters | floor lemma, Lebesgue measure and interval integral; induction over skip connections; refuted at rate one and on another device |
| C112 | the evaluation loop over directory entries, over the models of patches (C58), MS-SSIM (C45, C59) and PSNR (C83); networks and codec arbitrary | induction over the listing; exact condition by the two step lemmas; permutations of sums; refuted for no, small and unequal images |
| C113 | constructor (C50) with all arguments, the properties, the deleter and the checks | case analysis over the branches; refuted for priors of layers that are not compressible, for double precision priors and for unfilled tables |
| C114 | cropping, padding, flipping of stacked frames as functions of pixels with all draws as arguments; shapes for UVG; containers | pixelwise characterisation of each transform, then batches; refuted for the range, UVG normalisation and Kinetics labels |
| C115 | the law of one sample as a measure on the reals, the reported quantities as those of the base measure | Tonelli for the density; independence for moments; equality of distribution functions would force equal variances |
| C116 | the transforms on pixels with all draws as arguments; scaling as an arbitrary function of the sizes | pixelwise characterisation; mirror images by integer arithmetic; refuted for sizes given as lists |
| C117 | the configuration files as a function from run parameters to schedules; the loop counters of Lightning; the recursive cosine of torch | closed form of the counters by induction; cosine bound; refuted for short epochs, short runs, minimum and cosine |
| C118 | the collected rates, the two files and the newest checkpoint under starts, steps and crashes | invariant on all histories; exchange of summation for the weights; explicit histories for the violations |
| C119 | nested modules on a heap of mutable records, rounding of the straight-through estimator as a parameter | induction on the nesting; frame theorem for all calls; counterexamples with 24-bit significands and for the argument |
| C120 | forward pass of the bottleneck entry by entry, beside `compress`/`decompress` of C25–C28 | real analysis of indices, Gaussian bins of C29; counterexample from an index of 3/4 |
| C121 | `forward` of the entropy model beside `compress`, and the loop over scenes with either | tokens of the rounded latent are the rounded tokens, `encode_spec` of C25 with features, induction over scenes; counterexample with a tie in the fourth scene |
| C122 | `encode` with a coder that has a length in bits | hierarchical model written down directly as a product over steps; induction over the pops and pushes; Gibbs' inequality for the mean |
| C123 | the generators of a pass with tee and zip, the memoised decoders, a heap with reused identities | refinement to a plain loop: invariant that every cached result keeps the latent of its key alive, so that a new latent cannot match an old key; induction over the scenes |
| C124 | `DiffusionModel`, `create_gaussian_diffusion`, formulas of `improved_diffusion` over the reals | specification as measures (scaling and convolution with Gaussian noise); Bayes' rule for Gaussian densities, induction over the steps, telescoping products for respaced steps |
| C125 | `forward` of the HiFiC autoencoder in training mode, losses of the adversarial step, vector quantiser, with tensors that carry their derivative | composition of lemmas that a tensor follows a function of the parameters (value and Fréchet derivative); a second set of lemmas for directions that do not reach a tensor |
| C126 | training pass of the video model with tensors that carry their derivative: straight-through rounding, bottleneck, detached first latent, sliding context, weighted loss | induction over the frames: every frame is coded with the frames of its window; then as C125 |
| C127 | losses of the training stages and the loop over the P-frames, with tensors that carry their derivative, an arbitrary optimiser and frozen networks | induction over the P-frames; value and Fréchet derivative of every loss by composition, and lemmas for directions that do not reach a tensor |
| C128 | forward and backward of the two layers on a batch of pixels, the clamping of `.data`, histories of evaluations and training steps with any optimiser | Fréchet derivative of the formula; induction over the history with equality up to clamping; nearest point of a half line |
| C129 | `lpips` with the package's forward pass on arbitrary networks, argument checks, pairing of batches, reductions | case analysis and algebra of sums; concrete one-layer network for the version |
| C130 | `DvcModule.__init__`, `forward`, `configure_optimizers`, the optimiser and schedule steps of `training_step`, torch's `StepLR`, restoring of optimisers and schedules by Lightning 1.3.5 (`Train/DvcOptim.lean`) | case analysis; invariant of the state of the optimisers after g batches, kept by batches and by restoring, induction over batches and histories of starts (`Train/PropsDvcOptim.lean`) |
| C131 | the Kinetics loader with the iteration of pytorchvideo's data set, its division among worker processes, the turns of the `DataLoader`, seeding and the CPU generators of the processes; the Vimeo loader with `DistributedSampler`; the Kinetics transform of frames (`Data/Ranks.lean`) | permutations of the clips through splitting, batching and taking turns; induction over the events of a process; strides of the sampler as a permutation of the positions (`Data/PropsRanks.lean`) |
| C132 | convolutions, transposed convolutions, channel normalisation and all networks of HiFiC with their values, for arbitrary weights; coding as in C105 (`Models/HificNet.lean`) | a relation between two tensors, equal up to a shift near a place, is carried through every layer with the exact growth of the distance; reflection padding keeps the distance; the seam is computed for a weight that reads three rows up (`Models/PropsHificNet.lean`) |
| C133 | both pairs of transforms, windows, quantisation around the predicted mean, dequantiser and frame loop of `VCTPipeline.forward` in evaluation mode with their values, for arbitrary weights and arbitrary transformers on windows (`Vct/Net.lean`) | the relation of C132 is carried through every layer; without ties the quantised latent is the rounded latent, so nothing is handed on from older frames; a codec with ties that remembers the first frame is computed (`Vct/NetLemmas.lean`, `Vct/PropsNet.lean`) |
| C134 | values of group and channel normalisation, swish, residual and attention blocks, resampling, encoder, decoder, padding, crop, bottleneck trees and projector for all weights | each layer keeps a relation between two batches (same size, same pixels of two images), by induction over blocks and levels along the shape run of C100; bottleneck trees commute with the choice of pixels; a two-valued row stays two-valued for (e) |
| C135 | values of all layers of the two discriminators for all weights, with a heap of tensors so that in-place activations are seen by the shortcuts | each operation has a triple (value returned, value left in its argument, nothing else changed), composed along blocks and by induction over the levels; the relations of C132 and C134 between two batches for (d) and (e); small concrete networks for the violations |
| C136 | values of all parts of DVC for all settings and weights: layers, encoder and decoder, pyramid, flow loop, warping, motion compensation, bottlenecks with an arbitrary range coder, forward, compress, decompress; shapes and errors of C109 | a relation between two batches (or a latent and its decoded copy) kept by every operation, with equal errors; refinement of the shapes of C109; block averages by induction over levels; explicit sums for the layers; decoders with constant output for the violations |
| C137 | the three image callbacks with the dictionary of lists, `torch.cat` along width and height, the conversion of the flow of C42, the loops of `make_grid` that write into a grid | induction over lists for the concatenations, over P-frames for what is collected, over cells for the grid (cells are disjoint); colours from C42 |
| C138 | the coder of C01-C07 | all bytes of the buffer stay below 256 (invariant of the loops); prefix code from C01 and C02: a decoder that ignores what follows cannot return two messages; Kraft-McMillan (Mathlib); Gibbs' inequality; upper bound from C06; for tables, sums over all messages by induction on the length |
| C139 | `Train/Validation`: `evalTarget`, `evalGan` on the rate loss of C82; Lightning's accumulators by key, `validate` over devices and batches | `validate_average` by induction over batches and devices for every key whose batch value is a mean; `rate_spec` turns the rate loss of a batch into averages of a per-image specification |
| C140 | `Train/VideoValidation`: `evalClips` (validation), `evalFilms` (test) with the accumulators of C139 | `validate_table` of C139 for a table of per-video quantities; sums over videos and frames exchanged; errors by induction over batches and devices |
| C141 | `Data/Listing`: listings as lists, `imagePaths`, `clip`, `newest`; threads of the executor as lists of operations on a tree, schedules as lists of thread numbers | sorted permutations are equal; loop of `max` by induction; projection of a schedule to one thread, whose directories no other touches; races by executing a schedule |
| C142 | `Script/Plots`: `divideByNProc`, dictionary of renamed keys, state of the logger, traces of a plot | divisibility; the renaming is injective on keys without a slash, insertion of fresh keys by induction; sums over columns (Bhatia-Davis inequality) |
| C143 | `Rans/Model`: `encodeOne`, `decodeOne`, `fixedArrayCodec` | a run of the abstract coder with more bytes at the bottom of the stack (induction on the rows), Kraft-McMillan inequality of Mathlib, Gibbs' inequality, entropy of independent symbols by induction on lanes and rows, upper bound from C18 |
| C144 | `Functional/Gradients`: tensors as values with backward passes over extended floats; `ndtr`, `logNdtr`, `logCdf`, `logSf`, `logProb`, `probNode`, `logExpm1` | a compositional invariant: the backward pass multiplies by the derivative (`HasDerivAt`), and branches not taken stay quiet; the violations by passing 0/0 through the backward passes, with the rounding of `ndtr` to single precision |
| C145 | `Functional/SoftRoundGrad`: `softRoundN`, `softRoundInverseN`, `softRoundConditionalMeanN` as tensors with backward passes | one-sided derivatives joined at integers; inverse function theorem of Mathlib with C36; the violation by passing 0/0 through the clamped inverse hyperbolic tangent |
| C146 | `Functional/MsSsimGrad`: the whole function as tensors with backward passes, with torch's backward passes of relu, pow and prod | every operation gives the derivative (`Tracks`), clipped comparisons give zero; the score is then the index of the paper (C45); extrema have derivative zero |
| C147 | `Functional/WarpGrad`: backward pass of bilinear grid sampling with the factors of padding and normalisation | derivative of the interpolation on each unit interval, constant where clipped; reflection is a shift or a mirror image between its turning points and clipped near them; sums in which one term depends on the variable; between two columns a mean of differences of neighbours |
| C148 | `Models/Projector`: modes and gradient flags of the shared modules, counters of the codebook, calls of the two objects | induction over histories of events; the answer depends on the codebook and the mode of the encoder only |
| C149 | the layers of `Layers/Norm` and `Layers/GdnTrain` on whole images | uniqueness by comparison of ratios of absolute values (the largest ratio can be improved); existence as the greatest fixed point of a monotone map, and by a dominated linear system |
| C150 | `encode` and `decode` of `AC/Model` | the values of all bit sequences that start with a code are in the interval of every beginning of the message (`AC/Interval`); intervals of different symbols are disjoint and ordered; order of byte lists is the order of their values; a beginning uses only 32 bits beyond the bits that are settled |
| C151 | `encode` and `decode` of `Rans/Model` in two calls | the runs of the abstract coder compose; both calls read and write the state between the two parts; the free byte is where they differ; concrete runs for the violation |
| C152 | `Models/Restore`: bottleneck buffers with sizes, `update`, the loading of plain modules and of compressai's models, VCT's checkpoint loader | invariant over histories (all layers empty or all computed), then induction over layers and buffers; a concrete case for the mixture |
| C153 | `Vct/RateGrad`: the backward pass of the bottleneck in training mode for one entry, operation by operation | `HasDerivAt` of the modelled forward pass: chain rule through the normal distribution function, local equality with the branch in force |
| C154 | `Layers/VqTrain`: both losses of `quantize_vectors` and its backward pass (detach, indexing, mean squared error, `F.normalize`) | the choice of entries is locally constant where the nearest entry is unique, so the loss is locally a smooth function; `HasDerivAt` with the chain rule; steps by expanding squares per entry and optimality of the arg min |
| C155 | `Train/LossGrad`: backward passes of the adversarial, distortion and rate losses | `HasDerivAt` of the modelled losses along lines: softplus form of the cross-entropy, log-sum-exp, quotient rule for the protected normalisation, locally constant weights of the rate loss |
| C156 | `Vct/BnSettings`: the two constructors, update and forward for all integer table sizes, division by zero as a missing value | case analysis on the sizes; the sorted grids and the row of a symbol from C101 |
| C157 | `Train/Clip`: the clipping functions, and the gradients each optimiser sees in the steps of image and video training | norm of norms is the norm of all entries; scaling; induction over P-frames; case analysis of the settings |

## Not modelled

Network weights and training dynamics, GPU kernels, file download, logging
services, hydra configuration, plotting, the external `craystack` numpy library
beyond its codec laws, `compressai`'s internal rANS (assumed lossless),
`torchmetrics`/`lpips`/`DISTS` feature networks.

## Disagreements between code and property (found while modelling)

Each is a theorem with a concrete witness (`..._violated`), next to what does hold (`..._partial`).

* C07: the arithmetic decoder's own bound check is off by one.
* C14: `encode` with a too small capacity loses data without reporting it.
* C15: the bits-back codec raises `TypeError` when a component is itself a bits-back codec
  (the optional argument is not passed on).
* C16: popping from an empty stack and pushing back is not the identity with two lanes and rows.
* C21: `state_dict` spells `extra_bytes` as `extr_bytes`, so a restored codec reports a wrong used rate.
* C66: the observation bins are widened by `1/(n-1)` whatever the data range; they are centred on the
  data only for ranges of width 2.
* C26: rounding `x - mean` is not rounding `x` minus the mean at half-way points.
* C27: `scale -> index -> scale` comes back too large by `scales_min`, for every configuration.
* C30: the look-ahead mask subtracts `1e6` from the scores instead of replacing them, so scores of that
  size let later positions through.
* C31: the memoisation key maps lists, tuples and dicts to the same tuples, tensors to their identity; and
  positional and keyword arguments are different keys, so `decode_Pscene` is never shared.
* C32: `VCTPipeline` does not pass `context_len` to its entropy model.
* C33: frames of height or width up to 48, or 65 to 80, raise in the latent patcher's reflection padding.
* C34: long ramps of the ramp-cosine schedule are not monotone; `T_max = ramp_len + 1` divides by zero;
  `RampCosineLRSchedule` never reaches its minimum if it has a ramp.
* C35: `pad_image_to_factor` uses reflection padding, which raises when the padding reaches the image size.
* C37: the asymptotic series of `log_ndtr` uses the coefficients 1, 1, 3 instead of 1, 3, 15; `log_cdf` of a
  uniform distribution ignores its bounds; `log_survival_function` of any distribution other than the normal is
  `log1p(cdf(-x))`, which is the logarithm of a number of at least one. In double precision `ndtr` casts to single
  precision, where the tail underflows to zero at 15 standard deviations, while `log_ndtr` changes to its series only
  at 20: in between it returns minus infinity.
* C39: the `disconnected` gradient of `lower_bound` returns the input in place of the gradient; a bound given as
  a float makes the backward pass raise.
* C43: `dense_image_warp` normalises its grid for `align_corners=True` but samples with the default `False`, so
  zero flow does not return the image; bicubic sampling leaves the value range.
* C46: `UniformNoise.log_prob` of a uniform base distribution is minus infinity at values of positive probability
  (it inherits the two faults of C37). In double precision `log_prob` of a normal base distribution is not a number
  from 15 to 20 standard deviations away from the mean, for the reason given at C37.
* C47: `reset_hits` multiplies the loop variable, a tuple, by zero; no counter changes.
* C68: `upper_tail` never returns for a distribution class without `icdf`
  (the survival function it searches is the wrong one of C37), and `lower_tail` never returns when the quantile is exactly zero.
* C71: `UniformNoise` passes batch and event shape in the wrong order and draws noise of shape `sample_shape`
  only, so the elements of a batch share their noise, or the addition raises.
* C72: the byte count of the vector quantiser rounds down.
* C50: `ContinuousEntropy` raises for documented arguments: a scalar `prior_shape` with `maximum_cdf_size`, and a
  compressible layer for any noisy, scalar or one-element prior.
* C69: the rows of the coding tables are built along the sample axis instead of the distribution axis, the smallest
  symbol is clamped at zero, and rows beyond the number of symbols stay zero.
* C70: a layer made to be restored allocates buffers of shapes `[rank, max]` and `[max]`, which cannot load the
  tables of any layer built from a prior.
* C74: `quantize` passes a float tensor to `IntTensor`, which raises.
* C51: images of height or width up to 32 (and other sizes that need more padding than they have pixels) cannot be
  compressed by the hyperprior models; `forward` does not pad and works only for some sizes.
* C55: the DVC decompressor asks for a latent size obtained by halving the smallest logged size; it raises whenever
  `ceil(h/8)` or `ceil(w/8)` is odd, which includes full HD video.
* C57: the U-Net discriminator accepts factors for which its output has another resolution (2, `2^n`, larger).
* C76: `update()` without `force` keeps the tables of older parameters after further training.
* C58: grey images are merged three patches to one without notice; a prediction of another size is accepted.
* C60: schedules whose steps do not increase are accepted, although a factor is then never used.
* C63: validation logs the rate of a group of pictures without its I-frame.
* C77: a training step with a discriminator leaves the model without `requires_grad`; a second `fit` cannot be configured.
* C80: `training_step` and `eval_step` call the discriminator with a context although it may take none; training without
  discriminator always makes a quantile optimiser, which fails for a frozen bottleneck.
* C81: `enable_gradients` switches on every parameter of the optimiser, also those frozen after it was made.
* C83: 8-bit numpy images: differences and squares wrap modulo 256.
* C84: KID stores `subsets`, `subset_size`, `degree`, `gamma`, `coef` but never uses them and refuses the documented
  `reset_real_features`; `normalize=True` negates 8-bit images; the SwAV normalisation uses 0.228 for 0.229.
* C62: `Vimeo90kSeptuplet` in image mode without `pil_transform` calls `None` (`TypeError`), although the documentation says
  that no transform is needed; the frames of a CLIC video come in the order of the directory.
* C78: `CLIC2020Video` takes a new video index for each clip but ignores it while a video has clips left, so a loop ends after as
  many clips as there are videos; it cannot be iterated twice.
* C79: `force_download=True` of `Kodak` raises `FileExistsError` on an existing directory, also after an interrupted download;
  a second download of the CLIC validation images raises `OSError`.
* C85: labels of -101 become torch's `ignore_index` and drop out of the OASIS losses without notice; -1 trains towards "fake".
* C87: FID and FID-SwAV declare their states with `dist_reduce_fx="cat"`; after synchronisation they are tensors and `torch.cat`
  in `compute` raises `TypeError`, in every distributed run.
* C88: `"ddim1"` is always rejected, because the search stops one stride too early (`C88_ddim_one`).
* C89: `np.savez` writes in place; a crash inside it leaves a torn checkpoint, which is the newest one and makes every later
  start raise. The step is read from the last six characters of the name: a million samples or more, and 100000 or more
  remaining samples (the minus sign is cut off), make a start choose an older checkpoint.
* C90: asking for more samples in the directory of a completed run loads the old decode checkpoint (nothing left to decode),
  so the check passes without looking at the new batches.
* C91: `build_trainer` multiplies `max_steps` by the number of optimizers also if it is -1 (unlimited); the rate schedules
  are looked up with `global_step`, which counts optimizer steps, not training steps.
* C92: `model_train.py` tests `resume_training` (default true) before `overwrite`, so `overwrite=true` alone resumes; after an
  overwriting run Lightning writes `last-v1.ckpt`, and a later resume loads the stale `last.ckpt`.
* C93: `_custom_collate_train` has padding, but the loader does not ask for it; OpenImages passes `prefetch_factor=2` with the
  default of no worker processes, which PyTorch 2.0 rejects.
* C95: `cifar10.py` skips a split as soon as its directory exists; a killed run leaves it incomplete, and later runs without
  `--overwrite` report success and leave it so.
* C96: `setup` logs that the remainder of `num_samples` is dropped; the loop of `compute_vlb.py` rounds up instead.
* C97: `test_step` divides by `T - 1`; `PSNR_int` of training and validation converts unclamped reconstructions to `uint8`.
* C98: `conf/test_dataloaders/test.yaml` names `neuralcompression.data.DiV2KDataset` (the class is `DIV2KDataset`) and the split
  `test_fid` of CLIC, which the class rejects; all loaders are built before the first test, so no set is tested.
* C99: the cache key of `build_wandb_image_logger` is made of the class of the data module and the indices only; the file is
  written in place.
* C100: in training mode `VqVaeXCiTAutoencoder` neither pads nor checks: the reconstruction is smaller than the image if the
  factor does not divide its sizes.  `VqVaeProjector` never pads.  With `num_res_blocks=0` the constructor of the encoder gives
  layers whose channels do not fit together.
* C101: `_build_tables` gives the escape symbol twice the mass below the range, which is the mass outside only if the range is
  symmetric around the mean; `forward` in evaluation rounds the scale index, `compress` truncates it.
* C102: `compress_video` sets `_code_to_strings` and never clears it, so a later evaluation pass codes to strings and cannot stack the
  likelihoods; `ConvGDNSynthesis` ignores its argument when it reports `compression_channels`.
* C103: `WandbImageCallback` passes its own batch to `compress_iframe`, which writes into it; on the CPU `Tensor.to` does not copy.
* C104: `update_checkpoint` takes the model file with the greatest six digits even if the files that belong to it are missing or torn,
  and keeps a given file over newer checkpoints in the directory.
* C105: `forward` of the HiFiC autoencoder computes the quantised likelihood of the hyper-latent from the noisy values (the name is rebound),
  and does not clamp its reconstruction as `decompress` does.
* C106: `compute_batch_loss` of the last stages passes the unclamped estimate on as the next reference, while `decompress` clamps it.
* C107: `pretrained is True` treats `pretrained=1` as false and returns random weights; further arguments are ignored.
* C107: the downloads are not checked (`check_hash` is not used), so a connection closed early leaves an unreadable file in the cache.
* C108: with `pretrained_autoencoder` from `torchhub` the network of the hub replaces the configured one: `model.freeze_encoder=true model.freeze_bottleneck=true` of the README's fine-tuning command have no effect, and neither have the sizes of `model`.
* C64: a call of `encode` or `decode` that finds the message exhausted leaves its partial byte counts in `push_bytes`/`pop_bytes`.
* C109: an even `kernel_size` makes the flow estimator raise (the update is one larger than the flow) and the motion compensation return frames three rows and columns larger; the padding is `kernel_size // 2` in all of them.
* C109: `DVCCompressionEncoder(use_gdn=False)` in training mode raises on a single image when a layer has one pixel left.
* C110: the constructor accepts an odd difference of the window sizes and windows whose tokens do not divide the context's (`AssertionError` in the cross attention); `_get_encoded_seqs` constructs a `ValueError` for context lengths from 4 on without raising it.
* C110: `forward` compares only batch times windows, so previous latents of another shape can be accepted.
* C111: `StochasticDepth` draws on the CPU whatever the device of the input, and rate one gives `0 * inf`.
* C112: `eval_folder_example.py` divides by zero for a folder without `*.png`, stops at the first image smaller than 256 pixels (or with a single patch in total) without reporting anything, and averages rates per image.
* C113: `ContinuousEntropy` keeps `prior` only if `compressible`, so reading `prior` raises `AttributeError`; `prior_dtype` is `float32` for every prior; `_validate_range_coding_table` accepts the zero tables made for `maximum_cdf_size`.
* C114: `Vimeo90kSeptupletLightning` documents values in `[0, 1)`, white is 1; `UVGDataModule(normalize=True)` applies `pytorchvideo.transforms.Normalize`, which permutes four dimensions, to single images; the extra annotations of `KineticsDataset` are class attributes of a `NamedTuple` subclass, not fields.
* C115: `UniformNoise.variance`, `cdf`, `support` and `expand` are those of the base distribution without the noise.
* C116: `OpenImagesDataModule` annotates `image_size` as a list; `Resize` with a list of two numbers stretches the validation images, with one number it keeps the proportions.
* C117: with `lr_annealing_frequency` above the number of batches per epoch the schedule is never applied, since Lightning counts batches within the epoch.
* C117: `eta_min: ${eval:${training_loop.learning_rate}//100}` is a floor division and gives 0; likewise `//10`.
* C117: `cosine.yaml` sets `T_max` to the number of training steps, but the schedule is applied once per interval: it never anneals.
* C117: `ramp_len` is 0 for fewer than twenty intervals and `LinearRampCosineLR` divides by it.
* C118: `encode` averages `statistics().rate_effective_push` over the batches, but these are already averages over all batches so far.
* C118: `encode` writes the files with the rates after its last checkpoint; killed in between, no later run writes them. After a restart they lack the batches of the earlier run.
* C119: `ProjectLatent` and `NormalizeLatent` assign to the record they are given, although `VQBottleneck` below them returns a new one: the caller's record keeps the projected latent.
* C119: `preq + (latents - preq).detach()` is not the codebook entry in floating point, so latents with equal indices differ.
* C120: `GsnConditionalLocScaleShift.forward` rounds the scale index in evaluation, while `compress` and `decompress` call `_get_indexes` with the default `training=True` and truncate: up to one scale bin apart, and the mean is continuous in one and truncated in the other. The reported rate is that of another Gaussian than the one used for coding.
* C121: `compress` without the real decode (scenes from the fourth on) rounds the latent directly while `forward` rounds it around the predicted mean; ties are resolved differently, and the reconstruction with them (same cause as C26).
- **C124:** `sigma_small` without learned variances makes the posterior variance of the last step, which is 0, the variance of the data. `_gaussian_params` with the default `use_log_variance=False` takes its root, so the observation codec gets `clip_stdd = 1e-6` for every image (`C124_violated_small`). `create_gaussian_diffusion` with a single chosen step raises an `IndexError` (`C124_creates`).
- **C125:** the hyper networks get no gradient from the distortion or the discriminator: `_ste_quantize` subtracts and adds the means, and the derivatives cancel. This is what the code does; nothing in the documentation says otherwise.
- **C126:** `decode_Iscene` detaches the latent of the first frame before it becomes context, `decode_Pscene` does not. So later frames teach the latents of all frames but the first (`C126_first_not_taught`). The docstring of `TemporalEntropyModelOut` calls the latent in training "noised"; it is rounded with a straight-through gradient, only the likelihood is that of a noised latent.
- **C128:** `_clamp_min` ("Min clamping but preserving gradients") cannot be differentiated: its `backward` returns one gradient for two inputs, so PyTorch raises. The layers apply it to `.data` only and never meet this (`C128_clamp_backward`).
- **C129:** `use_linear_calibration=False` is documented to average the layers; they are added. `linear_weights_version` is documented to be ignored then; it still decides whether the input is scaled, and unknown values raise. The network is loaded on the CPU and not moved to the device of the images.
- **C130:** the documentation of `DvcModule` lists a stage `4_total` that is refused; `forward` passes one argument to stages that take two, so calling the module always raises; `lr_scheduler_params` is documented as a pair but used with `**`, so a pair raises a TypeError; a step size of zero is only noticed in the first batch.
- **C131:** the Kinetics data set is iterable and gets no distributed sampler, so every device goes through all videos; `seed_everything` gives all processes the same CPU generator, from which the loader seeds the shuffling, so with the default settings all devices train on the same clips in every step; `if cfg.get("seed")` ignores the seed 0.
- **C133:** the memory of the codec is two frames only up to ties: a latent half-way between two integers is rounded relative to the predicted mean, which depends on the frames before, so a difference can be handed on without end (`C133_ties`).
- **C135:** the activations are in place. With norm types `identity` (the default) and `spectral` no layer copies the features before the first activation of a block, so the shortcut, which is evaluated after the block, is given the activated features, not the features as in the OASIS paper (`C135_violated_shortcut`). With `batch` and `instance` it is given the features, so the norm type changes more than the normalisation.
- **C135:** the network has no skip connections between the way down and the way up: all logits are a function of the deepest features (`C135_violated_skips`).
- **C135:** with `instance` the discriminator raises `ValueError` for images of 64 to 127 pixels per side and the default channels, in evaluation too; with `batch` in training for one such image (`C135_violated_small`).
- **C136:** `DVCTrainOutput` and `forward` document "the calculated optical flow" and "the residual between the flow-compensated image1 and the true image2"; returned are the decoded flow and the decoded residual (`C136_violated_flow`, `C136_violated_residual`).
- **C136:** with `use_gdn=False`, in training, a frame's latent depends on the other frames of the batch (`C136_violated_batch`).
- **C140:** the PSNR after coding is logged under the misspelt key `psnt_int` (`model_lightning.py:182`); the rate of a test set of videos of different lengths is not all bits over all pixels (example in `PropsVideoValidation`).
- **C141:** `CLIC2020Video.__getitem__` does not sort the frames (`_clic_2020_video.py:101-103`), `update_checkpoint` takes the first listed of equal steps, and `download=True` always downloads again although the documentation says it does not.
- **C142:** `plot_evolution` documents data of shape `[steps, iterations]` (`script_util.py:387`) but averages over axis 0, so it plots `[iterations, steps]`, which is what the callers pass.
- **C144:** the gradient of `log_cdf` of a normal distribution at its mean is NaN: `log_ndtr` also evaluates the asymptotic series, which divides by the argument, and `torch.where` sends it the gradient zero. In single precision (all `ndtr` values) the gradients of `log_prob` of `NoisyNormal` are NaN as soon as one end of the interval is six standard deviations from the mean, so at every value for scales up to 1/12.
- **C145:** the gradient of `soft_round_inverse` at integers is NaN in single precision for `alpha >= 19`: tanh(alpha / 2) rounds to 1, atanh(-1) is -inf, `torch.clamp` passes the gradient zero, and zero is divided by zero.
- **C147:** with the default `align_corners=False` the outer pixels look half a pixel beyond the border at zero flow, where border padding gives no gradient, nor does reflection padding: their flow cannot be learnt from zero flow.
- **C148:** `VqVaeProjector` takes the modules of its argument: making it freezes them, training mode of the argument is training mode of the projector. `VQBottleneck.forward` counts hits in evaluation mode too, so evaluation changes the state dict.
- **C149:** `SimplifiedInverseGDN` is not the inverse of `SimplifiedGDN` for any parameters, except for channels without weight on themselves.
- **C151:** `encode` returns one free byte between heads and stack, which `decode` skips (`coder.py:193, 217-218`, `_backend.py:354`); `decode` returns none (`coder.py:303, 308-309`). So the bytes that `decode` leaves cannot be given to `decode` again (the top of the stack is lost and wrong rows come out without an error), and rows encoded on top of earlier ones cannot be decoded together with them; only the same steps in reverse order work (C11).
- **C152:** `DVC` and `VCTPipeline` are plain modules whose bottlenecks register empty buffers (`deep_video_compression.py:68`, `model_pipeline.py:155`, `bottlenecks.py:108-113`). A model saved after `update` or `compress_video` cannot be loaded in a newly built one (size mismatch), also not with `load_model_checkpoint_from_config`. The autoencoders inherit `compressai`'s loading, which resizes empty buffers, but only when they are loaded themselves and not as a part of a training module. A failed load changes the parameters and some of the tables before it raises.
- **C153:** (1) at a predicted scale of exactly zero `verysoftplus` (`bottlenecks.py:354-359`) gets half of its derivative, because `torch.minimum` splits the gradient on ties. A network whose last layer starts at zero gets half gradients at first. (2) A mean whose distance to the nearest integer is above `1/2 - 1/num_means` uses the last mean of the table, so the rate is constant in it, but the gradient (`bottlenecks.py:370`, `396-397`) is that of the latent with the opposite sign.
- **C156:** the constructor of the video bottleneck does not check table sizes. With `num_scales=1` it succeeds, `idx / (num_bins - 1)` is 0/0, all likelihoods are NaN and `update` fails its own assertion. With `num_scales=0` training runs and `update` raises `IndexError`.
- **C157:** for a limit that is not positive, image training does not clip (Lightning's convention), while video training calls `clip_grad_norm_` directly: zero makes all gradients zero and a negative `grad_clip_value` reverses them.

{"id": "C01", "title": "Arithmetic coder round trip", "statement": "For every message of symbols in 0..255 and every (possibly adaptive, stateful) integer CDF model whose cdf_fun and inverse_cdf_fun agree, decoding the bytes returned by encode with the message length returns exactly the message, provided the encoder's buffer holds the whole code.", "quantifier": "all message lengths and contents, all CDF models with positive frequencies summing to 2^16, all CDF states, all buffer sizes large enough", "why_tests_cant": "the 32-bit interval, pending-bit run lengths and carry patterns depend on the whole message history; no finite set of messages covers them", "anchors": ["projects/jax_entropy_coders/jax_arithmetic_coder.py: encode, decode, _enqueue, _dequeue, _jax_encode, _jax_decode"]}
{"id": "C02", "title": "Arithmetic decoder ignores bytes after the code", "statement": "Decoding depends only on the code bits: appending any bytes (in particular the zero padding decode adds to equalise a batch) or re-reading a clamped last byte does not change the decoded message.", "quantifier": "all messages, all models, all suffix byte strings", "why_tests_cant": "the suffix is unbounded and its effect on the 32-bit look-ahead window depends on the whole history", "anchors": ["projects/jax_entropy_coders/jax_arithmetic_coder.py: decode, _jax_decode, _retrieve_bit"]}
{"id": "C03", "title": "Arithmetic batch decode equals per-message decode", "statement": "Decoding a batch of codes with different message lengths returns, for each entry, the same message as decoding that entry alone; entries never influence each other and every entry is truncated to its own length.", "quantifier": "all batches, all lengths, all models", "why_tests_cant": "needs every combination of lengths and paddings", "anchors": ["projects/jax_entropy_coders/jax_arithmetic_coder.py: decode"]}
{"id": "C04", "title": "Arithmetic coder interval stays wide and coding terminates", "statement": "Between symbols the coder's interval always satisfies low < high < 2^32 with width above 2^30, so every symbol with positive frequency gets a non-empty sub-interval, and the renormalisation loop of both encode and decode always terminates within 32 iterations, also on arbitrary (corrupted) input bytes.", "quantifier": "all histories of coded symbols, all CDF models, all input bytes", "why_tests_cant": "termination and an invariant over unbounded histories", "anchors": ["projects/jax_entropy_coders/jax_arithmetic_coder.py: _enqueue, _dequeue (renormalisation while loops)"]}
{"id": "C05", "title": "Arithmetic decoder's floating point division is exact", "statement": "The decoder locates the symbol with a float64 division cast to an integer; for every reachable interval and code value the result equals the exact integer quotient, so rounding can never select a neighbouring symbol.", "quantifier": "all reachable (low, high, value) triples", "why_tests_cant": "about 2^96 triples", "anchors": ["projects/jax_entropy_coders/jax_arithmetic_coder.py: _dequeue (scaled_value)"]}
{"id": "C06", "title": "Arithmetic code length is within a provable margin of the information content", "statement": "The number of code bits is at most the sum over symbols of log2(2^16/freq) plus n*log2(1/(1-2^-14)) plus 2, so the number of bytes returned is bounded accordingly.", "quantifier": "all messages and models", "why_tests_cant": "a bound over all messages", "anchors": ["projects/jax_entropy_coders/jax_arithmetic_coder.py: encode"]}
{"id": "C07", "title": "Arithmetic encoder reports buffer overrun", "statement": "encode either raises the buffer-overrun error or returns bytes from which decode recovers the message; it never silently drops code bits.", "quantifier": "all messages, models and buffer sizes", "why_tests_cant": "the failure needs the code to end exactly at the buffer boundary", "anchors": ["projects/jax_entropy_coders/jax_arithmetic_coder.py: encode (overrun check), _jax_encode (final byte write)"]}
{"id": "C08", "title": "rANS pop inverts push", "statement": "For every coder state and every vector of symbols with frequencies between 1 and 2^p, popping after pushing returns the same symbols and restores heads, stack contents above the limit and stack limit, provided the stack had room.", "quantifier": "all lane counts, head values, stacks, precisions up to 24 and frequency tables", "why_tests_cant": "lanes interact through a shared stack and a data-dependent sort, over 32-bit heads", "anchors": ["projects/jax_entropy_coders/craystack/_backend.py: push_symbols, pop_symbols, tail_push, tail_pop", "projects/jax_entropy_coders/craystack/codecs.py: default_rans_codec"]}
{"id": "C09", "title": "rANS push inverts pop", "statement": "Popping symbols under a distribution and pushing them back under the same distribution restores the coder state exactly (what bits-back coding relies on), provided the stack held enough bytes.", "quantifier": "all states, lanes, precisions, tables", "why_tests_cant": "same", "anchors": ["projects/jax_entropy_coders/craystack/_backend.py: push_symbols, pop_symbols"]}
{"id": "C10", "title": "rANS heads stay in range", "statement": "After any history of pushes and pops every head stays in [2^24, 2^32), so no 32-bit operation overflows.", "quantifier": "all operation histories", "why_tests_cant": "unbounded histories", "anchors": ["projects/jax_entropy_coders/craystack/_backend.py: push_symbols, pop_symbols"]}
{"id": "C11", "title": "rANS encode/decode round trip with LIFO start buffers", "statement": "Decoding what encode returned yields the message in its original order, and when encode was given start buffers decoding also returns those start buffers byte for byte, whenever the stack capacity was not exceeded.", "quantifier": "all messages, models, interleave sizes, start buffers and capacities", "why_tests_cant": "unbounded messages over a shared stack", "anchors": ["projects/jax_entropy_coders/craystack/coder.py: encode, decode", "projects/jax_entropy_coders/craystack/_backend.py: push_symbols, pop_symbols, insert_zeros, array_to_craymessage"]}
{"id": "C12", "title": "CDF table inversion picks the symbol that owns the slot", "statement": "For every non-decreasing integer CDF table starting at 0 and ending at 2^p, the inverse lookup of any slot value returns the unique symbol whose interval contains the slot; zero-frequency symbols are never returned.", "quantifier": "all tables and all slot values", "why_tests_cant": "all tables", "anchors": ["projects/jax_entropy_coders/craystack/codecs.py: fixed_array_cdf_codec"]}
{"id": "C13", "title": "Serialised coder messages restore exactly", "statement": "Converting coder state to bytes and back (craymessage_to_array / array_to_craymessage), and trimming unused stack space then re-inserting it with insert_zeros, restores heads, live stack bytes and limit.", "quantifier": "all states and capacities", "why_tests_cant": "all states", "anchors": ["projects/jax_entropy_coders/craystack/_backend.py: craymessage_to_array, array_to_craymessage, insert_zeros, convert_to_embedded", "projects/jax_entropy_coders/craystack/coder.py: encode, decode"]}
{"id": "C14", "title": "rANS encoder never corrupts data silently", "statement": "encode either raises an error or returns bytes from which decode recovers the message, whatever tail capacity was requested.", "quantifier": "all messages, models, capacities", "why_tests_cant": "needs exact boundary situations", "anchors": ["projects/jax_entropy_coders/craystack/coder.py: encode", "projects/jax_entropy_coders/craystack/_backend.py: tail_push"]}
{"id": "C15", "title": "Bits-back coding is lossless", "statement": "For invertible prior, likelihood and posterior codecs, the bits-back codec's pop inverts push and push inverts pop, including when bits-back codecs are nested as each other's components.", "quantifier": "all component codecs satisfying the codec laws, all states, all nesting depths", "why_tests_cant": "quantifies over codecs", "anchors": ["projects/jax_entropy_coders/craystack/codecs.py: bitsback_ans_codec"]}
{"id": "C16", "title": "Bits-back coding survives an initially empty stack", "statement": "With allow_empty_pops the bits-back codec stays lossless for the data even when the initial stack runs out of bytes.", "quantifier": "all states, lane counts and numbers of available bytes", "why_tests_cant": "needs partial underflow", "anchors": ["projects/jax_entropy_coders/craystack/codecs.py: bitsback_ans_codec", "projects/jax_entropy_coders/craystack/_backend.py: tail_pop (allow_empty_pop)"]}
{"id": "C17", "title": "Peeking does not consume", "statement": "Peeking a symbol leaves the coder state unchanged and returns the same symbol a pop would return.", "quantifier": "all states", "why_tests_cant": "all states", "anchors": ["projects/jax_entropy_coders/craystack/_backend.py: peek, pop_symbols", "projects/jax_entropy_coders/craystack/codecs.py: default_rans_codec"]}
{"id": "C18", "title": "rANS code length is within a margin of the information content", "statement": "Pushing a symbol of frequency f at precision p multiplies the coder's integer state by at most (2^p/f)*(1+2^(p-24)), so the number of bytes pushed is bounded by information content plus a small overhead.", "quantifier": "all states, symbols, histories", "why_tests_cant": "a bound over all histories", "anchors": ["projects/jax_entropy_coders/craystack/_backend.py: push_symbols"]}
{"id": "C19", "title": "Diffusion bits-back codec is lossless", "statement": "For every deterministic model and number of diffusion steps, decoding after encoding returns the data and restores the coder state exactly.", "quantifier": "all models, step counts, data and states", "why_tests_cant": "quantifies over models and states", "anchors": ["projects/bits_back_diffusion/bits_back_diffusion/codec.py: BitsBackCodec.encode, BitsBackCodec.decode, prior_push, prior_pop, posterior_push, posterior_pop"]}
{"id": "C20", "title": "Diffusion bits-back codec is a stack of data points", "statement": "Encoding any sequence of data points and decoding as many returns them in reverse order, with the counter of encoded data points and the coder state returning to their initial values.", "quantifier": "all sequences", "why_tests_cant": "unbounded histories", "anchors": ["projects/bits_back_diffusion/bits_back_diffusion/codec.py: BitsBackCodec.encode, BitsBackCodec.decode"]}
{"id": "C21", "title": "Diffusion codec checkpoint restores the codec", "statement": "load_state_dict(state_dict()) on a fresh codec restores every field that later behaviour and statistics depend on.", "quantifier": "all codec states", "why_tests_cant": "all states", "anchors": ["projects/bits_back_diffusion/bits_back_diffusion/codec.py: BitsBackCodec.state_dict, BitsBackCodec.load_state_dict"]}
{"id": "C22", "title": "Diffusion codec rejects bad data without changing state", "statement": "encode raises on data outside the symbol range or with the wrong shape before any bit is pushed; accepted data decodes to itself through quantise and dequantise.", "quantifier": "all inputs", "why_tests_cant": "all inputs and states", "anchors": ["projects/bits_back_diffusion/bits_back_diffusion/codec.py: BitsBackCodec.encode, quantize"]}
{"id": "C23", "title": "Patching is invertible", "statement": "Cutting a latent into non-overlapping patches and un-patching the channels-last patches with the original size as crop returns the latent unchanged, for every height and width for which reflection padding is defined (padding smaller than the size), also when padding was needed; for the other sizes patching raises instead of returning wrong data.", "quantifier": "all batch sizes, channels, heights, widths, strides", "why_tests_cant": "index arithmetic over all sizes", "anchors": ["projects/torch_vct/neural/patcher.py: Patcher.forward, Patcher.unpatch, _pad, _window_partition"]}
{"id": "C24", "title": "Encoder and decoder windows line up", "statement": "For every input size the overlapping (encoder) and non-overlapping (decoder) patchings of the same latent produce the same number of patches, patch (i,j) is centred on the same block, and the convolution based extraction agrees with direct slicing of the padded latent.", "quantifier": "all sizes, strides and window sizes with even difference", "why_tests_cant": "index arithmetic over all sizes", "anchors": ["projects/torch_vct/neural/patcher.py: _pad, _window_partition_conv2d, _window_partition"]}
{"id": "C25", "title": "Autoregressive latent coding is lossless for any network", "statement": "Decoding the strings produced by the entropy model's encoder, re-running the network on the partially decoded buffer, reproduces the quantised latents for every deterministic network, causal or not, and consumes exactly all strings.", "quantifier": "all networks, sequence lengths, latents", "why_tests_cant": "quantifies over networks", "anchors": ["projects/torch_vct/neural/entropy_model.py: _encode, _decode"]}
{"id": "C26", "title": "Skipping the real decode does not change the result", "statement": "compress returns the same latent whether or not the real decode is run (run_decode flag).", "quantifier": "all latents and predicted means", "why_tests_cant": "fails only at ties", "anchors": ["projects/torch_vct/neural/entropy_model.py: compress", "projects/torch_vct/neural/bottlenecks.py: GsnConditionalLocScaleShift.compress"]}
{"id": "C27", "title": "Scale quantiser maps back to the scale", "statement": "from_scale_idx inverts to_scale_idx on the valid range and indices stay within the table.", "quantifier": "all scales in (0, scales_max], all bin counts", "why_tests_cant": "all reals", "anchors": ["projects/torch_vct/neural/bottlenecks.py: Scaler"]}
{"id": "C28", "title": "CDF table indices are always in range and unambiguous", "statement": "For all predicted means and scales the table index used by compress and decompress lies inside the table, both sides compute the same index, and different (mean, scale) bins never share an entry.", "quantifier": "all reals", "why_tests_cant": "all reals", "anchors": ["projects/torch_vct/neural/bottlenecks.py: _get_indexes, _normalize_indexes, indexes_to_cdf_indexes"]}
{"id": "C29", "title": "Discretised Gaussian likelihoods form a sub-probability", "statement": "The likelihood assigned to integers by the conditional model is non-negative, symmetric, equals the Gaussian mass of the unit bin, and sums to at most one over any finite set of integers; the lower bound that the forward pass puts on it adds at most that bound per integer.", "quantifier": "all means, positive scales, integer ranges", "why_tests_cant": "infinite sums", "anchors": ["projects/torch_vct/neural/bottlenecks.py: _likelihood"]}
{"id": "C30", "title": "Decoder attention is causal", "statement": "The distribution predicted for token i does not depend on tokens i, i+1, ... of the latent being coded.", "quantifier": "all networks weights, sequences", "why_tests_cant": "quantifies over weights and inputs", "anchors": ["projects/torch_vct/neural/layers_utils.py: WindowMultiHeadAttention", "projects/torch_vct/neural/entropy_model_layers.py: StartSym, TransformerBlock, Transformer"]}
{"id": "C31", "title": "Memoisation is transparent", "statement": "Calling a memoised function through a cache returns what the function itself would return for those arguments, and the hit counter counts exactly the calls answered from the cache.", "quantifier": "all call histories", "why_tests_cant": "histories, identity-based keys", "anchors": ["projects/torch_vct/utils/memoize.py: memoize, _ensure_hashable, bind"]}
{"id": "C32", "title": "Temporal context window", "statement": "After any number of coded scenes the state holds exactly the last min(n, context_len) latents in order, encoder and decoder states agree at every scene, and the entropy model always sees exactly context_len contexts.", "quantifier": "all video lengths, context lengths", "why_tests_cant": "unbounded histories", "anchors": ["projects/torch_vct/model_pipeline.py: encode_scenes, decode_scenes, decode_Iscene, decode_Pscene", "projects/torch_vct/neural/entropy_model.py: _get_encoded_seqs"]}
{"id": "C33", "title": "Video model preserves frame geometry", "statement": "For every video height and width the evaluation forward pass returns frames of the input's size, with padding only where required and removed afterwards.", "quantifier": "all sizes", "why_tests_cant": "all sizes", "anchors": ["projects/torch_vct/model_pipeline.py: forward, _pad", "projects/torch_vct/neural/transforms.py: ConvGDNAnalysis, ConvGDNSynthesis, ELICAnalysis, ELICSynthesis"]}
{"id": "C34", "title": "Learning-rate schedules stay within bounds", "statement": "The VCT and neuralcompression schedules return a non-negative rate never above the base rate for the whole configured horizon, ramp up monotonically and decay monotonically to the minimum.", "quantifier": "all epochs, horizons, ramps, base rates", "why_tests_cant": "all horizons", "anchors": ["projects/torch_vct/utils/schedulers.py", "neuralcompression/optim/_ramp_cosine.py, _ramp_const_cosine.py"]}
{"id": "C35", "title": "Image padding to a factor", "statement": "Padding an image to a factor yields the smallest size at least the original that is divisible by the factor, leaves the original pixels in place, and cropping back returns the image.", "quantifier": "all sizes and factors", "why_tests_cant": "all sizes", "anchors": ["neuralcompression/functional/_pad_image.py"]}
{"id": "C36", "title": "Soft rounding", "statement": "Soft rounding is strictly increasing, fixes integers, commutes with integer shifts, stays within half a unit of its argument and soft_round_inverse undoes it, for every positive temperature. A larger alpha gives a closer approximation of rounding: the distance from the nearest integer falls with alpha, exponentially, at every argument that is not half way between two integers; below the threshold it is the identity, and at the threshold there is no visible step.", "quantifier": "all reals and temperatures", "why_tests_cant": "all reals", "anchors": ["neuralcompression/functional/_soft_round.py, _soft_round_inverse.py, _soft_round_conditional_mean.py"]}
{"id": "C37", "title": "Normal CDF helpers are consistent", "statement": "ndtr takes values in [0,1], satisfies ndtr(x)+ndtr(-x)=1 on all its branches, and log_ndtr, log_cdf and log_survival_function return the logarithm of what cdf and survival_function return.", "quantifier": "all reals and distributions", "why_tests_cant": "all reals", "anchors": ["neuralcompression/functional/_ndtr.py, _log_ndtr.py, _log_cdf.py, _log_survival_function.py, _survival_function.py"]}
{"id": "C38", "title": "log_expm1 is accurate on both branches", "statement": "log_expm1(x) equals log(exp(x)-1) for small x and differs from it by less than exp(-14) beyond the switch point; the function is continuous up to that error.", "quantifier": "all positive reals", "why_tests_cant": "all reals", "anchors": ["neuralcompression/functional/_log_expm1.py"]}
{"id": "C39", "title": "Lower bound gradient rule", "statement": "lower_bound clamps its input from below, and its backward pass implements each documented gradient rule: pass-through, block below the bound unless the step would move towards it, or disconnect below the bound.", "quantifier": "all inputs, bounds, incoming gradients", "why_tests_cant": "all reals", "anchors": ["neuralcompression/functional/_lower_bound.py"]}
{"id": "C40", "title": "Information content is a bit count", "statement": "information_content of probabilities in (0,1] is non-negative, additive over concatenation, and in base 2 equals the number of bits; its reductions agree with each other.", "quantifier": "all tensors of probabilities", "why_tests_cant": "all reals", "anchors": ["neuralcompression/functional/_information_content.py"]}
{"id": "C41", "title": "8-bit image conversion", "statement": "image_to_255_scale maps [0,1] into [0,255], is monotone, and is exact on images that came from 8-bit data.", "quantifier": "all pixel values", "why_tests_cant": "all reals", "anchors": ["neuralcompression/functional/_image_to_255_scale.py"]}
{"id": "C42", "title": "Colour conversion stays in gamut", "statement": "hsv_to_rgb maps hue in [0,360], saturation and value in [0,1] to RGB in [0,1], with maximum channel equal to value and minimum channel value*(1-saturation); optical_flow_to_color always feeds it valid HSV, with the direction of the flow as hue and its length, scaled to the range of the field, as brightness. The conversion loses nothing but the hue and saturation of black and grey and reaches every RGB colour; the flow can be read off its picture except for the shortest vectors of the field, which are black.", "quantifier": "all colours, flows", "why_tests_cant": "all reals", "anchors": ["neuralcompression/functional/_hsv_to_rgb.py, _optical_flow_to_color.py"]}
{"id": "C43", "title": "Image warp", "statement": "dense_image_warp with zero flow returns the image, with an integer flow shifts it by that flow inside the image, and never produces values outside the range of the sampled pixels.", "quantifier": "all images, flows", "why_tests_cant": "all reals", "anchors": ["neuralcompression/functional/_dense_image_warp.py"]}
{"id": "C44", "title": "FLOP counting honours overrides", "statement": "count_flops uses, for every operator, the user's override when given, otherwise the library estimate, otherwise the base handler, and reports the operators it could not count.", "quantifier": "all handler tables", "why_tests_cant": "all tables", "anchors": ["neuralcompression/functional/_count_flops.py"]}
{"id": "C45", "title": "Multiscale structural similarity of identical images is one", "statement": "ms-ssim(x,x)=1 for every image, and images too small for the number of scales are rejected instead of producing a value. For other pairs the value is the index that the cited paper defines: Gaussian-weighted means, variances and covariances, compared at every scale and multiplied. It does not depend on the unit of the pixels if the data range is given in the same unit, nor on which axis is the height.", "quantifier": "all images and sizes", "why_tests_cant": "all reals", "anchors": ["neuralcompression/functional/_multiscale_structural_similarity.py"]}
{"id": "C46", "title": "Uniform-noise distribution probability", "statement": "UniformNoise.prob(v) equals cdf(v+1/2)-cdf(v-1/2) of the base distribution on both numerical branches, is non-negative, and sums to at most one over integers; log_prob is its logarithm.", "quantifier": "all base distributions, values", "why_tests_cant": "all reals", "anchors": ["neuralcompression/distributions/_uniform_noise.py"]}
{"id": "C47", "title": "Vector quantiser picks the nearest code and counts hits", "statement": "Each vector is replaced by a codebook entry at minimal distance, indices decode to the same vectors, total hits equal the number of quantised vectors over any training history, and reset_hits clears the counters.", "quantifier": "all codebooks, inputs, histories", "why_tests_cant": "histories", "anchors": ["neuralcompression/layers/_vq_bottleneck.py, _q_bottleneck.py"]}
{"id": "C48", "title": "GDN never divides by zero", "statement": "Simplified GDN and inverse GDN use non-negative weights and a strictly positive bias for every parameter value, so the normaliser is at least the minimum bias and the output keeps sign and is bounded by |x|/beta_min.", "quantifier": "all parameters and inputs", "why_tests_cant": "all reals", "anchors": ["neuralcompression/layers/_simplified_gdn.py"]}
{"id": "C49", "title": "Channel normalisation", "statement": "ChannelNorm2D output per pixel has zero mean over channels and variance at most one (before the affine part), for every input with at least two channels.", "quantifier": "all inputs", "why_tests_cant": "all reals", "anchors": ["neuralcompression/layers/_channel_norm.py"]}
{"id": "C50", "title": "Entropy layer constructor validation", "statement": "ContinuousEntropy accepts exactly the documented argument combinations and rejects all others.", "quantifier": "all argument combinations", "why_tests_cant": "combinatorial", "anchors": ["neuralcompression/layers/_continuous_entropy.py"]}
{"id": "C51", "title": "Hyperprior decoding recovers the encoder's latent geometry", "statement": "For every image size, decompress reconstructs the latent and hyper-latent grid sizes the encoder used from the stored sizes, and returns an image of the original size with values in [0,1].", "quantifier": "all image sizes", "why_tests_cant": "all sizes", "anchors": ["neuralcompression/models/_hific_autoencoder.py: compress, decompress", "neuralcompression/models/_hific_encoder_decoder.py"]}
{"id": "C52", "title": "Compression guards", "statement": "forward, compress and decompress refuse to run in the wrong device or update mode, and a sequence of mode switches ends in the mode of the last successful switch.", "quantifier": "all histories of mode switches", "why_tests_cant": "histories", "anchors": ["neuralcompression/models/_hific_autoencoder.py: update_tensor_devices, forward, compress, decompress", "neuralcompression/models/_hyperprior_autoencoder.py"]}
{"id": "C53", "title": "Parameter groups partition the trainable parameters", "statement": "collect_parameters splits trainable parameters into two disjoint groups that cover all of them, so no parameter is optimised twice or not at all.", "quantifier": "all parameter names", "why_tests_cant": "all modules", "anchors": ["neuralcompression/models/_hyperprior_autoencoder.py: collect_parameters", "projects/deep_video_compression/_utils.py: collect_parameters"]}
{"id": "C54", "title": "Freezing the encoder is permanent", "statement": "After freeze_encoder the frozen modules have gradients disabled and stay in evaluation mode across any later train()/eval() calls, the others follow the calls.", "quantifier": "all histories", "why_tests_cant": "histories", "anchors": ["neuralcompression/models/_hific_autoencoder.py: freeze_encoder, freeze_bottleneck, train"]}
{"id": "C55", "title": "DVC coder restores sizes", "statement": "The DVC decoder given the sizes logged by the encoder returns exactly the encoder's input size for every height and width, and decompress asks the entropy decoder for the same latent size the encoder produced.", "quantifier": "all sizes, layer counts", "why_tests_cant": "all sizes", "anchors": ["neuralcompression/models/deep_video_compression.py: DVCCompressionEncoder, DVCCompressionDecoder, DVC.compress, DVC.decompress"]}
{"id": "C56", "title": "DVC coding is closed-loop", "statement": "For lossless entropy bottlenecks, decompress reconstructs the same prediction the encoder used when computing the residual, so over any sequence of P-frames encoder and decoder references stay identical.", "quantifier": "all networks, frame sequences", "why_tests_cant": "histories, networks", "anchors": ["neuralcompression/models/deep_video_compression.py: DVC.compress, DVC.decompress"]}
{"id": "C57", "title": "U-Net discriminator output resolution", "statement": "For every power-of-two output_downsampling_factor accepted by the constructor the discriminator's output has the image size divided by that factor and the requested channels.", "quantifier": "all channel lists and factors", "why_tests_cant": "all configurations", "anchors": ["neuralcompression/models/_unet_discriminator.py"]}
{"id": "C58", "title": "Patch FID counts", "statement": "update_patch_fid feeds each metric the same number of real and fake patches and returns the total, which equals floor(H/p)*floor(W/p) per image plus the shifted grid when the image is at least 1.5 patches in both directions.", "quantifier": "all sizes, batches, metrics", "why_tests_cant": "all sizes", "anchors": ["neuralcompression/metrics/_update_patch_fid.py"]}
{"id": "C59", "title": "MS-SSIM metric accumulates a mean", "statement": "The metric's value equals the mean of per-image scores over all updates, independent of batching and of the order of updates or of how replicas are merged.", "quantifier": "all batchings and histories", "why_tests_cant": "histories", "anchors": ["neuralcompression/metrics/_msssim.py"]}
{"id": "C60", "title": "Scheduled rate targets", "statement": "The scheduled rate parameter equals base times the factor of the first schedule step not yet reached, the last factor afterwards, is piecewise constant in the global step, and configurations whose lists cannot drive the schedule are rejected.", "quantifier": "all schedules and steps", "why_tests_cant": "all schedules", "anchors": ["projects/illm/target_compression_module.py: _get_scheduled_rate_param", "neuralcompression/loss_fn/_target_rate_config.py"]}
{"id": "C61", "title": "GAN alternation", "statement": "During the generator step only model parameters and during the discriminator step only discriminator parameters receive gradients, and the two sampled half batches are disjoint and equally large.", "quantifier": "all steps, batches", "why_tests_cant": "histories", "anchors": ["projects/illm/gan_compression_module.py: training_step, _resample_batch, enable_gradients, disable_gradients"]}
{"id": "C62", "title": "Dataset indexing enumerates every frame exactly once", "statement": "Vimeo90kSeptuplet in image mode maps indices 0..len-1 one-to-one onto (folder, frame) pairs; UVG batches never mix videos; OpenImages excludes exactly the invalid names; sampled CLIC frames are valid and ordered.", "quantifier": "all folder lists, frame counts", "why_tests_cant": "all sizes", "anchors": ["neuralcompression/data/_vimeo_90k_septuplet.py, _openimages_v6.py, _clic_2020_video.py", "projects/torch_vct/datamodules/uvg.py"]}
{"id": "C63", "title": "Group-of-pictures metrics", "statement": "DVC training accumulates distortion, flow, residual and total bit rates over the P-frames so that the logged totals equal the sum of the per-frame terms (including the I-frame rate), in training and validation alike.", "quantifier": "all numbers of frames", "why_tests_cant": "histories", "anchors": ["projects/deep_video_compression/dvc_module.py: compute_loss_and_metrics, training_step, validation_step"]}
{"id": "C64", "title": "Diffusion codec byte statistics add up", "statement": "With tracking on, after any successful encode or decode the bytes pushed minus the bytes popped, summed over all diffusion steps, change by exactly the change of the message size, so the per-step rates sum to the effective rate. After any history of calls the reported rates are the bits of the message (total), the bits added to the initial message (effective) and the bits beyond the untouched rest of the initial message (used), per value of all images in the message; statistics raises only for a codec that holds nothing.", "quantifier": "all models, step counts, states and data", "why_tests_cant": "all histories", "anchors": ["projects/bits_back_diffusion/bits_back_diffusion/codec.py: BitsBackCodec._track_codec, statistics"]}
{"id": "C65", "title": "Observation codec uses a probability distribution", "statement": "For every mean, standard deviation, data range and precision, the symbol probabilities of the uniform-bin Gaussian codec are non-negative and sum to one.", "quantifier": "all distributions, ranges and precisions", "why_tests_cant": "real-valued parameters", "anchors": ["projects/bits_back_diffusion/bits_back_diffusion/codec.py: diag_gaussian_unif_bins"]}
{"id": "C66", "title": "Observation bins are centred on the data values", "statement": "The bin of every symbol reaches exactly half a quantisation step below and above the value the network sees for that symbol.", "quantifier": "all data ranges, precisions and symbols", "why_tests_cant": "all ranges", "anchors": ["projects/bits_back_diffusion/bits_back_diffusion/codec.py: diag_gaussian_unif_bins, posterior"]}
{"id": "C67", "title": "Quantisation offset reproduces the mean", "statement": "quantization_offset lies in [-1/2, 1/2], differs from the mean of the distribution by an integer, so that rounding modulo the offset returns the mean itself and moves every value by at most half a unit; a distribution without a mean gets offset zero.", "quantifier": "all distributions and values", "why_tests_cant": "real-valued parameters", "anchors": ["neuralcompression/functional/_quantization_offset.py: quantization_offset"]}
{"id": "C68", "title": "Tail search", "statement": "upper_tail and lower_tail terminate and return a point whose tail mass is the requested one up to the tolerance, for every distribution class that is accepted.", "quantifier": "all distributions, tail masses", "why_tests_cant": "termination and all reals", "anchors": ["neuralcompression/functional/_estimate_tails.py, _lower_tail.py, _upper_tail.py"]}
{"id": "C69", "title": "Range coding tables represent the prior", "statement": "When ContinuousEntropy is built from a prior, row k of its tables is the quantised probability mass function of the k-th distribution, over the integers that carry all but the tail mass, followed by the overflow mass.", "quantifier": "all priors, tail masses and precisions", "why_tests_cant": "all priors", "anchors": ["neuralcompression/layers/_continuous_entropy.py: ContinuousEntropy._update"]}
{"id": "C70", "title": "Saved range coding tables can be restored", "statement": "An entropy layer created with maximum_cdf_size can load the state of any layer whose tables fit into that size.", "quantifier": "all saved states and sizes", "why_tests_cant": "all shapes", "anchors": ["neuralcompression/layers/_continuous_entropy.py: ContinuousEntropy.__init__"]}
{"id": "C71", "title": "Noisy samples are independent across the batch", "statement": "rsample of a UniformNoise distribution returns samples of shape sample_shape + batch_shape in which every element has its own uniform noise, and the wrapper keeps the batch shape of the base distribution.", "quantifier": "all batch and sample shapes", "why_tests_cant": "all shapes", "anchors": ["neuralcompression/distributions/_uniform_noise.py: UniformNoise.__init__, rsample"]}
{"id": "C72", "title": "Vector quantiser byte count and metrics", "statement": "num_bytes suffices to store the indices of a batch, and the codebook metrics are consistent: perplexity between one and the codebook size, share of used entries in [0, 1], largest counter between average and total.", "quantifier": "all shapes, codebook sizes and hit counts", "why_tests_cant": "real-valued entropy of all histograms", "anchors": ["neuralcompression/layers/_vq_bottleneck.py: VQBottleneck.forward", "neuralcompression/layers/_q_bottleneck.py: update_metrics"]}
{"id": "C73", "title": "Probabilistic quantisation follows its weights", "statement": "With probabilistic=True an index is chosen with probability proportional to 1/(distance + 1e-7).", "quantifier": "all distances and all random draws", "why_tests_cant": "all reals", "anchors": ["neuralcompression/layers/_q_bottleneck.py: QBottleneck.quantize_vectors"]}
{"id": "C74", "title": "Integer quantisation of the entropy layer", "statement": "ContinuousEntropy.quantize returns, for every tensor and every offset, the integer tensor of the values rounded after subtracting the offset.", "quantifier": "all tensors, offsets and element types", "why_tests_cant": "all inputs", "anchors": ["neuralcompression/layers/_continuous_entropy.py: ContinuousEntropy.quantize"]}
{"id": "C75", "title": "Cross-covariance attention is equivariant", "statement": "Permuting the tokens of an input permutes the output of XCA in the same way; the attention weights of every channel are positive and sum to one, and the attention logits are bounded by the temperature however large the input is.", "quantifier": "all parameters, inputs, token counts and permutations", "why_tests_cant": "all reals and sizes", "anchors": ["neuralcompression/layers/_xca.py: XCA.forward"]}
{"id": "C76", "title": "Coding tables match the parameters", "statement": "After switching to compress mode the entropy coding tables are those of the current parameters, however the model was trained and switched before.", "quantifier": "all histories of training, moving and switching", "why_tests_cant": "all histories", "anchors": ["neuralcompression/models/_hific_autoencoder.py: update_tensor_devices", "neuralcompression/models/_hyperprior_autoencoder.py: update"]}
{"id": "C77", "title": "Training leaves the model trainable", "statement": "After any number of training steps with a discriminator the model can be trained further: its optimisers can be configured again and all its parameters that took gradients still do.", "quantifier": "all models, batches and numbers of steps", "why_tests_cant": "all histories", "anchors": ["projects/illm/gan_compression_module.py: training_step, configure_optimizers", "neuralcompression/models/_hyperprior_autoencoder.py: collect_parameters"]}
{"id": "C78", "title": "Video iteration visits every video", "statement": "Iterating over CLIC2020Video yields every clip of every video that the sampler selects, and a dataset can be iterated repeatedly.", "quantifier": "all numbers of videos, clips per video and sampler orders", "why_tests_cant": "all histories", "anchors": ["neuralcompression/data/_clic_2020_video.py: __getitem__, __next__"]}
{"id": "C79", "title": "Downloading again", "statement": "Requesting the download of a dataset that is present behaves as documented: Kodak with force_download replaces the images, without it raises; CLIC2020Image with download=True works although the data were downloaded before.", "quantifier": "all states of the directory", "why_tests_cant": "all file system histories", "anchors": ["neuralcompression/data/_kodak.py: _download", "neuralcompression/data/_clic_2020_image.py: download"]}
{"id": "C80", "title": "Supported configurations can be trained", "statement": "Training and evaluation work with discriminators that take no context and with models whose bottleneck is frozen.", "quantifier": "all models and batches", "why_tests_cant": "all configurations", "anchors": ["projects/illm/gan_compression_module.py: run_discriminator, training_step, eval_step", "projects/illm/target_compression_module.py: configure_optimizers"]}
{"id": "C81", "title": "Frozen parts stay frozen in training", "statement": "A parameter whose gradients are switched off is not changed by any number of training steps, and stays switched off.", "quantifier": "all models, frozen parts, times of freezing and numbers of steps", "why_tests_cant": "all histories", "anchors": ["projects/illm/gan_compression_module.py: enable_gradients, training_step", "projects/illm/target_compression_module.py: training_step"]}
{"id": "C82", "title": "Rate loss", "statement": "The rate loss is the batch mean of the bits per pixel, weighted per image by the high lambda if the quantised rate is above the target and by the low one otherwise; bits are non-negative sums of ideal code lengths, and the logged totals are the sums of their parts.", "quantifier": "all likelihoods, configurations and training steps", "why_tests_cant": "all reals", "anchors": ["projects/illm/target_compression_module.py: rate_loss, _calc_bits_per_batch"]}
{"id": "C83", "title": "PSNR", "statement": "calc_psnr and calc_psnr_numpy return 20 log10(range / RMSE): infinite exactly for equal images, symmetric, invariant under a change of scale, decreasing in the mean square error, for floating point and 8-bit images.", "quantifier": "all images and ranges", "why_tests_cant": "all reals", "anchors": ["neuralcompression/metrics/_calc_psnr.py"]}
{"id": "C84", "title": "Metrics honour their arguments", "statement": "The documented arguments of the KID, FID and SwAV-FID metrics take effect as documented.", "quantifier": "all argument values and images", "why_tests_cant": "all inputs", "anchors": ["neuralcompression/metrics/_kid.py", "neuralcompression/metrics/_fid.py", "neuralcompression/metrics/_fid_swav.py"]}
{"id": "C85", "title": "GAN losses", "statement": "The binary cross-entropy GAN losses are the mean cross-entropies of the logits with the target and, for fakes, with zero; a target without dimensions stands for a constant map and every other disagreement of shapes raises ValueError; at equal real and fake logits the discriminator loss is at least log 2, with equality only at zero logits. The OASIS losses are the mean categorical cross-entropies with the labels shifted by one and with class zero, agree with the binary ones for two logits, do not change if a constant is added, and refuse targets of the wrong size or type and labels out of range.", "quantifier": "all logits, targets, shapes and numbers of classes", "why_tests_cant": "all reals and shapes", "anchors": ["neuralcompression/loss_fn/_binary_crossentropy_loss.py", "neuralcompression/loss_fn/_oasis_loss.py"]}
{"id": "C86", "title": "Distortion losses", "statement": "LPIPS with the fixed normalisation is zero for equal images, symmetric, non-negative for non-negative weights and bounded without weights; its normalisation is Lipschitz, so gradients stay finite also at zero features; it stays in evaluation mode whatever the mode of the model it is part of; the MSE and MSE-LPIPS losses inherit this, average over the batch, and with the default scale the MSE is the one of the 8-bit values.", "quantifier": "all images, networks, weights and histories of train and eval", "why_tests_cant": "all reals and histories", "anchors": ["neuralcompression/loss_fn/_normfix_lpips.py", "neuralcompression/loss_fn/_mse_loss.py", "neuralcompression/loss_fn/_mse_lpips_loss.py"]}
{"id": "C87", "title": "Feature metrics in distributed evaluation", "statement": "FID, FID-SwAV and KID computed in a distributed run give the value for all images seen by all processes.", "quantifier": "all numbers of processes, histories of updates and features", "why_tests_cant": "all histories and processes", "anchors": ["neuralcompression/metrics/_fid.py", "neuralcompression/metrics/_fid_swav.py", "neuralcompression/metrics/_kid.py"]}
{"id": "C88", "title": "Choosing diffusion steps", "statement": "space_timesteps with a list of counts returns, for each of the equal sections, exactly the requested number of distinct steps, evenly spaced from the first to the last step of the section; with vlbN exactly N steps including the first T/N and the last; with ddimN the N multiples of one stride. Requests that cannot be met raise ValueError (an empty list and vlb0 ZeroDivisionError).", "quantifier": "all numbers of steps, lists of counts and N, all sufficiently small rounding errors", "why_tests_cant": "all naturals and section lists", "anchors": ["projects/bits_back_diffusion/bits_back_diffusion/script_util.py: space_timesteps"]}
{"id": "C89", "title": "Resuming an interrupted encoding", "statement": "encode.py can be interrupted at any point and started again: every complete file in its directory is right, no more than one save interval of work is lost, running it again completes, and when it reports completion all samples are encoded, and decoded identically if checking was requested.", "quantifier": "all histories of starts, steps and crashes (also inside a write), all codecs with a lossless push and pop, all sizes", "why_tests_cant": "all crash points and histories", "anchors": ["projects/bits_back_diffusion/encode.py: main, encode, decode", "projects/bits_back_diffusion/bits_back_diffusion/script_util.py: update_checkpoint, parse_resume_step_from_filename"]}
{"id": "C90", "title": "Completed checks cover all samples", "statement": "When encode.py with check=true reports completion, every encoded batch was decoded from the message and compared with the data, also if the run continued an earlier one with a different number of samples.", "quantifier": "all histories of runs in a directory", "why_tests_cant": "all histories", "anchors": ["projects/bits_back_diffusion/encode.py: main"]}
{"id": "C91", "title": "Training steps", "statement": "A training run of the image project processes exactly max_steps batches whatever the number of optimizers, its learning-rate schedules advance once per batch, and the target-rate schedules switch at the training step that the documentation gives.", "quantifier": "all networks, optimizer configurations, numbers of steps, data and rate schedules", "why_tests_cant": "all histories of steps", "anchors": ["projects/illm/train.py: build_trainer", "projects/illm/gan_compression_module.py: training_step", "projects/illm/target_compression_module.py: training_step, _get_scheduled_rate_param"]}
{"id": "C92", "title": "Run directories of the training scripts", "statement": "Starting a training script in a directory with earlier work refuses, starts anew or resumes as the flags say; a resumed run continues from the newest state saved in the directory.", "quantifier": "all histories of starts with any flags, saves and crashes", "why_tests_cant": "all histories and crash points", "anchors": ["projects/illm/train.py: fetch_checkpoint", "projects/torch_vct/model_train.py", "projects/illm/conf/config.yaml", "projects/torch_vct/config/train_config.yaml"]}
{"id": "C93", "title": "Batches of the training and validation loaders", "statement": "The Kinetics loaders deliver every batch of clips, one row per clip with the requested number of frames in the order of time; the OpenImages loaders go through the images once per epoch.", "quantifier": "all clips, numbers of samples, random draws, batch sizes and image lists", "why_tests_cant": "all inputs and random draws", "anchors": ["projects/torch_vct/datamodules/kinetics.py", "projects/illm/open_images_datamodule.py"]}
{"id": "C94", "title": "Recovering a model from a training checkpoint", "statement": "Loading a model from the checkpoint of its training module gives exactly the weights of the model, whatever other modules the training module has; files without the weights of the model are refused, never loaded in part.", "quantifier": "all training modules, names, keys and values", "why_tests_cant": "all module trees and names", "anchors": ["projects/illm/train.py: pretrained_state_dict, configure_and_load_state_dict", "projects/torch_vct/utils/checkpoint_loaders.py: load_model_checkpoint_from_config"]}
{"id": "C95", "title": "Preparation of CIFAR-10", "statement": "Whatever runs of the CIFAR-10 script came before, completed or killed at any point, every file in the output directories is named after an image of the split and is either incomplete or holds that image; a completed run leaves exactly the images of the data set, each once, named by class and index.", "quantifier": "all data, all histories of runs with or without --overwrite, all points at which a run is killed", "why_tests_cant": "all histories and crash points", "anchors": ["projects/bits_back_diffusion/datasets/cifar10.py"]}
{"id": "C96", "title": "Evaluation of the variational bound", "statement": "The evaluation covers the number of samples asked for, each image once; the total that it reports is the mean over the samples, and the arrays that it saves have one row per sample and one column per time step, with the prior last.", "quantifier": "all data, numbers of samples, processes, batch sizes and time steps", "why_tests_cant": "all sizes and all values", "anchors": ["projects/bits_back_diffusion/compute_vlb.py", "projects/bits_back_diffusion/bits_back_diffusion/script_util.py: setup", "projects/bits_back_diffusion/config/data/imagenet.yaml"]}
{"id": "C97", "title": "Losses and metrics of the video project", "statement": "The training loss is the weighted mean of lambda*255^2*MSE + bits per pixel over the frames and is never negative; test rates are bits per pixel with and without the first frame; the 8-bit PSNR is that of the rounded frames.", "quantifier": "all videos, likelihoods, reconstructions and weights", "why_tests_cant": "all values", "anchors": ["projects/torch_vct/model_lightning.py", "projects/torch_vct/model_pipeline.py: compute_rate"]}
{"id": "C98", "title": "Metrics of the test and validation sets", "statement": "The metrics that a test or validation of the image project reports are those of its own images, whatever names, tests (completed or interrupted) and validations came before; testing several sets one after the other gives the metrics of each set; values of different sets or metrics have different keys.", "quantifier": "all images, batches, data sets, names and histories", "why_tests_cant": "all histories of tests and validations", "anchors": ["projects/illm/image_module.py", "projects/illm/train.py: build_test_dataloaders, main", "projects/illm/target_compression_module.py: test_step", "projects/illm/conf/test_dataloaders/test.yaml"]}
{"id": "C99", "title": "Cache of images to log", "statement": "The images that a training run logs are those with the configured indices of the configured data, whatever is in the cache directory, whatever other processes start at the same time, and wherever processes were killed.", "quantifier": "all configurations, images, interleavings of processes and crash points", "why_tests_cant": "all interleavings and crash points", "anchors": ["projects/illm/train.py: build_wandb_image_logger"]}
{"id": "C100", "title": "Sizes of the VQ-VAE autoencoder", "statement": "For all sensible arguments the constructor succeeds exactly if the channels suit the normalisation; the reconstruction of an image of any size has exactly the size of the image and the latent has one vector for every block of pixels, in training and evaluation; encoder and decoder have attention at the same levels.", "quantifier": "all numbers of channels, levels, blocks, resolutions and images of all sizes", "why_tests_cant": "all architectures and image sizes", "anchors": ["neuralcompression/models/_vqvae_xcit_autoencoder.py: VqVaeXCiTAutoencoder", "neuralcompression/models/_vqvae_projector.py: VqVaeProjector", "neuralcompression/layers/_channel_norm.py"]}
{"id": "C101", "title": "Coding tables of the video bottleneck", "statement": "For every number of means and scales, tail mass and prediction: there is a row for each pair of indexes, the row that codes a symbol is the one built for its bins of mean and scale, its range leaves at most the tail mass outside, its weights are the probabilities of the symbols and of the values outside the range (so they sum to one), and the likelihood that the model reports in evaluation is the weight of the symbol in that row.", "quantifier": "all configurations, tail masses, predicted means and scales, inputs", "why_tests_cant": "all real predictions and table sizes", "anchors": ["projects/torch_vct/neural/bottlenecks.py: ContinuousIndexedGaussianConditional, GsnConditionalLocScaleShift"]}
{"id": "C102", "title": "Calls on the video model over time", "statement": "Compressing, decompressing, testing and evaluating a video do not depend on the calls made before (in the same mode); compression returns one number of bits per frame, the size of its strings, and decompression returns frames of the shape of the video; compressing leaves the mode alone; a pipeline is constructed exactly if the channels of its parts fit.", "quantifier": "all histories of calls (returning or raising), videos, transforms and channel numbers", "why_tests_cant": "all histories of calls on one object", "anchors": ["projects/torch_vct/model_pipeline.py: VCTPipeline.__init__, forward, compress_video, decompress_video, _prepare_for_compression", "projects/torch_vct/model_lightning.py: VCTModule.test_step", "projects/torch_vct/neural/transforms.py: ConvGDNSynthesis, ELICAnalysis, ELICSynthesis"]}
{"id": "C103", "title": "Staged training of the deep video compression project", "statement": "Stages run in the order of the configuration and each trains the parts of the stages before it, leaving the others alone. However often and wherever the training script dies and is restarted with resume_training, the model it ends with is one that training without interruption gives from initial weights, where each part has those it had in one of the starts, and no saved step is done again; with overwrite the result does not depend on what is in the directories; with neither flag no existing checkpoint is changed. Logged mosaics show each clip and time at its place, and logged images are those of the compressed first frame.", "quantifier": "all histories of starts with any initial weights, save times and crash points; all images", "why_tests_cant": "all crash points and histories of restarts", "anchors": ["projects/deep_video_compression/train.py: main, run_training_stage, WandbImageCallback", "projects/deep_video_compression/_utils.py: DvcStage1, DvcStage2, DvcStage3, DvcStage4and5"]}
{"id": "C104", "title": "Restarting the training of a diffusion model", "statement": "A training that is started again in its directory continues from the last checkpoint with the weights, moving averages and optimizer of one state that was saved, loses at most save_interval iterations, and all processes start with the same weights.", "quantifier": "all histories of starts, iterations and deaths, including deaths between and in the writes of files; all updates, intervals and rates", "why_tests_cant": "all crash points and histories of restarts", "anchors": ["projects/bits_back_diffusion/bits_back_diffusion/script_util.py: update_checkpoint, parse_resume_step_from_filename, TrainLoop._load_and_sync_parameters, TrainLoop._load_ema_parameters", "projects/bits_back_diffusion/train.py: main"]}
{"id": "C105", "title": "What forward reports is what coding gives", "statement": "In evaluation mode the reconstruction, the latents and the likelihoods that forward of the HiFiC autoencoder reports for an image are those of the values that decompress gets from the strings of compress; and the quantised likelihoods reported in training are those of the coded values.", "quantifier": "all networks with the sizes of the layers, all lossless range coders, images, noises and freezing settings", "why_tests_cant": "the agreement must hold for every image and network, and unit tests of a random network see a few images", "anchors": ["neuralcompression/models/_hific_autoencoder.py: HiFiCAutoencoder.forward, HiFiCAutoencoder.compress, HiFiCAutoencoder.decompress, HiFiCAutoencoder.train", "neuralcompression/models/_hyperprior_autoencoder.py: _HyperpriorAutoencoderBase._ste_quantize"]}
{"id": "C106", "title": "Losses of the deep video compression stages", "statement": "Validation of the last stages measures what coding the scene gives: the errors of the frames the receiver shows and the bits per pixel of the strings; each stage extends the one before; the first stage measures the error of the flow at every level of the pyramid, ending with the flow it returns; no term of a loss is negative and the distortion vanishes exactly for perfect estimates.", "quantifier": "all networks, lossless bottlenecks, scenes of any length, weights and numbers of levels", "why_tests_cant": "the agreement of two code paths over scenes of any length and for all networks", "anchors": ["projects/deep_video_compression/_utils.py: DvcStage1.compute_batch_loss, DvcStage2.compute_batch_loss, DvcStage3.compute_batch_loss, DvcStage4and5.compute_batch_loss", "projects/deep_video_compression/dvc_module.py: DvcModule.validation_step", "neuralcompression/models/deep_video_compression.py: DVC.forward, DVCPyramidFlowEstimator.calculate_flow_with_image_pairs"]}
{"id": "C107", "title": "Pretrained models", "statement": "A call of the hub or the zoo that asks for pretrained weights gives the documented architecture with exactly the weights published for the documented rate, after any history of other calls, interrupted downloads and removed cache files; once downloaded it needs no connection; a call for a new model never depends on server or cache; different models never share a file. Values that mean true are honoured as such.", "quantifier": "all histories of calls, transfers, publications and removals, all states of server and cache", "why_tests_cant": "histories of a cache shared by all models", "anchors": ["hubconf.py", "neuralcompression/zoo/_msillm.py: _build_msillm", "neuralcompression/zoo/_noganms.py: _build_noganms", "neuralcompression/zoo/_msillm_vqvae.py: _build_msillm_vqvae, vqvae_xcit_p8_ch64_cb1024_h8"]}
{"id": "C108", "title": "Fine-tuning with frozen parts", "statement": "A module built from a training configuration starts from the pretrained weights the configuration names, has the architecture it describes, and the parts it freezes (freeze_encoder, freeze_bottleneck) keep the named weights through every number of training steps and train/eval calls, while every other parameter of the autoencoder is given to an optimizer; the latent projector is always in evaluation mode and never takes gradients.", "quantifier": "all configurations (with and without discriminator, weights from a file, from the hub or none), all histories of training steps and train/eval calls", "why_tests_cant": "unbounded training histories, and configurations whose sections contradict each other silently", "anchors": ["projects/illm/train.py: configure_and_load_state_dict, build_model, build_module", "neuralcompression/models/_vqvae_projector.py: VqVaeProjector", "projects/illm/README.md"]}
{"id": "C109", "title": "The networks of deep video compression fit together", "statement": "Whatever the documented settings (channels, filter channels, kernel size, stride, number of layers, normalisation, pyramid levels), the parts of DVC accept frames of their channels and return tensors of the documented channels: the encoder shrinks every side by its stride once per layer, the decoder given the encoder's sizes restores the size of the input exactly, the flow estimator returns two channels of the frames' size and one pair of images per level, motion compensation returns the frames' size; parts whose channels match make a model whose forward returns frames of the given size, and DVC(coder_channels) runs on all RGB frames of at least 16 by 16.", "quantifier": "all settings of the parts, all frame sizes and batch sizes, training and evaluation mode", "why_tests_cant": "the sizes pass through a chain of roundings whose length is a setting; every combination of settings gives another network", "anchors": ["neuralcompression/models/deep_video_compression.py: DVC, DVCCompressionEncoder, DVCCompressionDecoder, DVCPyramidFlowEstimator, DVCMotionCompensationModel"]}
{"id": "C110", "title": "Settings of the video entropy model", "statement": "A setting that the constructor of the video entropy model accepts can be used: every previous latent of the right channels can be processed, and with one to context_len previous latents the forward pass returns a perturbed latent of the latent's shape, features of its sides and one likelihood per channel and token; previous latents of another shape are refused.", "quantifier": "all settings (windows, context length, layers, heads, widths, drop-out rates), latent sizes, batch sizes and numbers of previous latents", "why_tests_cant": "the checks that decide are spread over five modules and compare products of settings; tests use the default setting", "anchors": ["projects/torch_vct/neural/entropy_model.py: VCTEntropyModel.__init__, process_previous_latent_q, _get_transformer_output, forward", "projects/torch_vct/neural/entropy_model_layers.py: LearnedPosition, StartSym, TransformerBlock, Transformer, EncoderSection", "projects/torch_vct/neural/layers_utils.py: MLP, WindowMultiHeadAttention, make_embedding"]}
{"id": "C111", "title": "Stochastic depth keeps the mean", "statement": "A stochastic-depth layer changes nothing in evaluation mode; in training it drops whole samples, each by its own draw and with the given probability, and scales the others so that the mean of every element is unchanged, for every rate that can be set and wherever the input lives; a sample dropped by all skip connections passes a transformer block unchanged.", "quantifier": "all rates, batches, draws, numbers of skip connections and parts", "why_tests_cant": "the statement is about an expectation over random draws and all networks", "anchors": ["projects/torch_vct/neural/layers_utils.py: StochasticDepth", "projects/torch_vct/neural/entropy_model_layers.py: TransformerBlock.forward"]}
{"id": "C112", "title": "Evaluation of a folder of images", "statement": "Evaluating a compression model on a folder reports, for every folder, the mean rate, PSNR, MS-SSIM and LPIPS over its PNG images, each counted once and compared as 8-bit images, and the FID of all their patches, whatever other files there are and in whatever order the folder is listed; the rate is the one of the whole set.", "quantifier": "all folders (names, unreadable files, pictures of all sizes), listing orders, models that keep the shape, and metric networks", "why_tests_cant": "the order of a directory listing depends on the file system, and the conditions on sizes and counts concern every folder", "anchors": ["projects/illm/eval_folder_example.py: main, rescale_image", "neuralcompression/metrics/_update_patch_fid.py: update_patch_fid", "neuralcompression/metrics/_calc_psnr.py: calc_psnr", "neuralcompression/metrics/_msssim.py: MultiscaleStructuralSimilarity"]}
{"id": "C113", "title": "What an entropy layer answers about itself", "statement": "A constructed entropy layer reports the settings it was built with, the shape and the type of its prior, its tables exactly if it is compressible (RuntimeError otherwise), and its prior until that is deleted (RuntimeError from then on, the tables being unaffected); its check of the tables refuses tables that have not been filled.", "quantifier": "all accepted combinations of constructor arguments, priors, tables and sequences of deletions", "why_tests_cant": "the answers depend on which branch of the constructor was taken, for every combination of eleven arguments", "anchors": ["neuralcompression/layers/_continuous_entropy.py: ContinuousEntropy.__init__, prior, prior_dtype, prior_shape, context_shape, cdfs, cdf_sizes, cdf_offsets, _validate_range_coding_table"]}
{"id": "C114", "title": "Clips of the video data modules", "statement": "Every training and validation batch of the Vimeo data modules has one row per item with all its frames at the configured size, whatever the sizes of the frames and the random draws; all frames of a clip show the same window, training windows lie inside the frame and may be mirrored, validation shows the centre; values are in the documented range; UVG samples have the documented shape, normalised or not; the containers accept what they are annotated with and refuse other shapes.", "quantifier": "all frame sizes, crop sizes, batches and random draws", "why_tests_cant": "cropping, padding and the drawn windows depend on the sizes of frames and crops in many cases, for all draws", "anchors": ["projects/torch_vct/datamodules/vimeo.py: VimeoDataModule", "projects/torch_vct/datamodules/uvg.py: UVGDataModule", "projects/torch_vct/datamodules/video_data_api.py", "projects/deep_video_compression/data_module.py: Vimeo90kSeptupletLightning"]}
{"id": "C115", "title": "A noisy distribution describes its samples", "statement": "The probability, mean, variance, cumulative distribution function, entropy, support and expansion that a UniformNoise distribution reports are those of the variable it samples, a sample of the base distribution plus independent uniform noise.", "quantifier": "all base distributions on the real line (with a variance where one is needed)", "why_tests_cant": "statements about laws of random variables, for every base distribution", "anchors": ["neuralcompression/distributions/_uniform_noise.py: UniformNoise.rsample, prob, mean, variance, cdf, entropy, support, expand"]}
{"id": "C116", "title": "Images of the image data module", "statement": "With the default transforms every training and validation batch of the OpenImages data module has one row per image at the size asked for, whatever the sizes of the images and the random draws; training shows a window of the image, mirrored or not and continued by mirror images where the image is too small; validation shows the centre of the image scaled in its proportions, without padding.", "quantifier": "all image sizes, requested sizes, batches and random draws", "why_tests_cant": "cropping, padding and scaling depend on the sizes in many cases, for all draws", "anchors": ["projects/illm/default_transforms.py: default_train_transform, default_val_transform", "projects/illm/open_images_datamodule.py: OpenImagesDataModule"]}
{"id": "C117", "title": "Learning rate of a run of the video project", "statement": "In a training run of the video project the configured schedule is applied once per annealing interval of training steps, whatever the epoch length; every step has a rate between zero and the learning rate, and the run ends at the schedule's minimum: a hundredth of the learning rate for ramp-cosine, a tenth for warm-up-cosine, zero for cosine.", "quantifier": "all run lengths, intervals, learning rates, epoch lengths and steps", "why_tests_cant": "the rate at each step depends on the run length, the interval and the epoch length together", "anchors": ["projects/torch_vct/model_lightning.py: VCTModule.configure_optimizers", "projects/torch_vct/config/train_config.yaml: training_loop", "projects/torch_vct/config/scheduler", "projects/torch_vct/utils/schedulers.py: LinearRampCosineLR, LinearRampLinearLR, LinearWarmUpCosineLR"]}
{"id": "C118", "title": "Files with the rates of the diffusion steps", "statement": "With tracking on, when encode.py reports completion its directory holds rates-push.npz and rates-pop.npz, whose mean is for each diffusion step the bits per value of the encoded stream, between their minimum and maximum, whatever interruptions and restarts there were.", "quantifier": "all histories of starts, steps and crashes, all byte counts, sizes and save intervals", "why_tests_cant": "the files depend on the whole history of runs in the directory", "anchors": ["projects/bits_back_diffusion/encode.py: main, encode", "projects/bits_back_diffusion/bits_back_diffusion/codec.py: BitsBackCodec.statistics"]}
{"id": "C119", "title": "Bottlenecks of the VQ-VAE", "statement": "Projection, normalisation and vector quantisation nested in any order keep the number of channels; with a quantiser the resulting latent at a pixel is the same function of the index at that pixel for all inputs, so the indices are all a receiver needs; behind a normalisation the length of the vectors does not matter; a call leaves the records it was not given, and its argument, as they were.", "quantifier": "all nestings, weights, codebooks, latents, records and calls that raise", "why_tests_cant": "nesting is unbounded and the claim relates all inputs with equal indices", "anchors": ["neuralcompression/layers/_project_latent.py: ProjectLatent", "neuralcompression/layers/_normalize_latent.py: NormalizeLatent", "neuralcompression/layers/_vq_bottleneck.py: VQBottleneck", "neuralcompression/zoo/_msillm_vqvae.py"]}
{"id": "C120", "title": "What the video bottleneck reports", "statement": "The values that the forward pass of the video bottleneck returns, in training and in evaluation, are those that compress and decompress give, integers within one half of the input; the likelihood it reports in evaluation is the probability of the coded integer under the distribution it is coded with; in training it is the density at the noisy value; bits are never negative and bounded per entry.", "quantifier": "all tensors, predicted means and scales, numbers of means and scales, noise, both modes, lossless coders", "why_tests_cant": "the claims range over all real predictions; the difference between rounding and truncating the scale index shows only for some of them", "anchors": ["projects/torch_vct/neural/bottlenecks.py: GsnConditionalLocScaleShift.forward, compress, decompress", "projects/torch_vct/neural/bottlenecks.py: ContinuousIndexedGaussianConditional.forward, _normalize_indexes", "projects/torch_vct/neural/bottlenecks.py: Scaler.to_scale_idx"]}
{"id": "C121", "title": "Evaluating a video and compressing it give the same video", "statement": "For every video, a model with a causal transformer reconstructs the same scenes whether it is evaluated in one forward pass per scene or compressed token by token with compress_video.", "quantifier": "all numbers of scenes, latents, sizes, window sizes, causal networks, feature dimensions, context lengths and lossless coders", "why_tests_cant": "the two paths run different code over all tokens and all earlier scenes; they differ only for values half way between integers from the fourth scene on", "anchors": ["projects/torch_vct/neural/entropy_model.py: VCTEntropyModel.forward, compress", "projects/torch_vct/model_pipeline.py: VCTPipeline.encode_Iscene, encode_Pscene, forward, compress_video"]}
{"id": "C122", "title": "Rate of the diffusion codec is the variational bound", "statement": "Encoding a data point makes the message longer by -log2(p(x, z) / q(z | x)) for the latents z that it takes from the message; on average over q this is at least -log2 p(x), it is exactly that if the model knows its posterior, and the effective rate that is reported for a dataset is the sum of these terms per dimension.", "quantifier": "all networks, step counts, data, messages, numbers of data points and entropy coders that spend -log2 of the mass", "why_tests_cant": "a wrong step index, a parameter of the wrong level or a term that is coded twice leaves the codec lossless and only changes the rate", "anchors": ["projects/bits_back_diffusion/bits_back_diffusion/codec.py: BitsBackCodec.encode, decode, prior_push, prior_pop, posterior, likelihood, statistics"]}
{"id": "C123", "title": "A pass over a video is online and its cache is safe", "statement": "Asking the pipeline for k coded scenes takes exactly the first k scenes of the video, each once, and gives the reconstructions and likelihoods of a plain loop over these scenes, paired scene by scene; the cache that encoder and decoder share never returns the result of another scene, even though its keys are identities of tensors which the allocator reuses.", "quantifier": "all videos, context lengths, numbers of outputs asked for, networks and memory allocators that do not hand out identities in use", "why_tests_cant": "generators, a duplicated iterator and a cache run interleaved; which identities are reused depends on the allocator and on what happens to be alive", "anchors": ["projects/torch_vct/model_pipeline.py: VCTPipeline.encode_scenes, decode_scenes, encode_and_decode_scenes, encode_Iscene, encode_Pscene, decode_Iscene, decode_Pscene", "projects/torch_vct/utils/memoize.py: memoize, bind"]}
{"id": "C124", "title": "Latents of the diffusion codec follow the noising process", "statement": "With a diffusion made by create_gaussian_diffusion, the latents that encoding draws given the data have exactly the law of the noising process at the chosen steps (start with the data, in every step of the schedule scale and add Gaussian noise), although they are drawn in the reverse order from conditional Gaussians. All standard deviations are positive and do not depend on use_log_variance. If the network predicts the data of a latent exactly, prior and posterior agree. The network is asked about the chosen step in the time of the schedule. The diffusion has the types, steps and betas that the arguments ask for. The schedules are the documented ones (linear: evenly spaced betas from 0.1/n to 20/n; cosine); the prior has the root of beta (fixed large), the posterior's deviation (fixed small) or their learned logarithmic mean as standard deviation; a latent is the point whose standardised value is the centre of its bin; data is coded with at least clip_stdd.", "quantifier": "all schedules and numbers of steps (cosine; linear with more than 20), choices of steps, networks, data, latents of any size and variance types", "why_tests_cant": "an identity of densities over all real data and latents and over every number and choice of steps", "anchors": ["projects/bits_back_diffusion/bits_back_diffusion/codec.py: DiffusionModel.infer_fn, DiffusionModel.generate_fn, DiffusionModel._gaussian_params, BitsBackCodec.posterior", "projects/bits_back_diffusion/bits_back_diffusion/script_util.py: create_gaussian_diffusion"]}
{"id": "C125", "title": "What the losses of the image codecs teach", "statement": "In training the HiFiC autoencoder decodes the latent rounded about the predicted means. The gradient of the generator step is the derivative of the loss in which the rounding error, the discriminator, what the discriminator is told about the latent and the weight of the rate are held fixed. So distortion and adversarial loss teach encoder and decoder only, the rate teaches encoder and hyper networks only, frozen parts and the discriminator learn nothing in this step, and the discriminator step teaches the discriminator only. The vector quantiser passes gradients of its output on to its input unchanged and none to the codebook; the commitment loss teaches only what comes before it, the embedding loss only the codebook, and a code that no pixel has chosen gets no gradient from any loss.", "quantifier": "all networks and losses with a derivative, parameters, images, noise, frozen parts, conditional and unconditional discriminators; all codebooks, choices of codes, numbers of pixels and directions of change", "why_tests_cant": "a statement about derivatives at every point of the parameter space, for every network; finite differences of a rounding are zero or infinite and cannot test it", "anchors": ["neuralcompression/models/_hific_autoencoder.py: HiFiCAutoencoder.forward", "neuralcompression/models/_hyperprior_autoencoder.py: _HyperpriorAutoencoderBase._ste_quantize", "projects/illm/gan_compression_module.py: GANCompressionModule.training_step, run_discriminator, disable_gradients, enable_gradients", "neuralcompression/layers/_q_bottleneck.py: _VectorQuantizationBottleneck.quantize_vectors"]}
{"id": "C126", "title": "What a frame of a video teaches", "statement": "In a training pass of the video model, the transmitted latent of a frame is the unrounded latent rounded about the rounded mean, and the derivative of its value is that of the unrounded latent. The likelihood and the input of the synthesis of every frame have the value and the derivative of ordinary functions in which roundings are fixed shifts. A frame teaches only the parameters, its own latent and the latents in its context window, except that of the first frame: that one is never taught by later frames, even if it is in their window. The loss weighs the first frame once and every other frame ten times.", "quantifier": "all videos of any length, context lengths, networks with a derivative, parameters, latents, noise and directions of change", "why_tests_cant": "a statement about derivatives at every point, through a recursion over any number of frames; roundings cannot be tested by finite differences", "anchors": ["projects/torch_vct/model_pipeline.py: VCTPipeline.encode_Iscene, encode_Pscene, decode_Iscene, decode_Pscene, encode_and_decode_scenes", "projects/torch_vct/neural/entropy_model.py: VCTEntropyModel.forward, round_st", "projects/torch_vct/neural/bottlenecks.py: GsnConditionalLocScaleShift.forward, _get_indexes, _round_st", "projects/torch_vct/model_lightning.py: VCTModule.training_step"]}
{"id": "C127", "title": "What a P-frame teaches", "statement": "In every training stage of the deep video compression project, the pass over a P-frame changes the trained parameters by the gradient of the loss of that frame alone: the derivative of distortion plus the rates of the stage, at the current parameters, with the reference frame held fixed. The reference frame is the compressed I-frame or the estimate of the pass before, made with the parameters before its update. The distortion never teaches the bottlenecks, the rate of the flow teaches no decoder, the rate of the residual teaches everything but the bottleneck of the motion and its own decoder, stage 1 teaches the motion estimator only, and frozen networks learn nothing.", "quantifier": "all stages, numbers of P-frames, networks with a derivative, parameters, frames, noise, optimisers (with any state and clipping), sets of frozen networks and directions of change", "why_tests_cant": "a statement about derivatives at every point, for every network and optimiser and any number of updates in one step", "anchors": ["projects/deep_video_compression/_utils.py: DvcStage1, DvcStage2, DvcStage3, DvcStage4and5 compute_batch_loss", "projects/deep_video_compression/dvc_module.py: DvcModule.training_step, compute_loss_and_metrics", "neuralcompression/models/deep_video_compression.py: DVC.forward"]}
{"id": "C128", "title": "Training through GDN layers", "statement": "A GDN or inverse GDN layer teaches its parameters, and the layers before it, the exact gradient of the documented formula at the clamped parameters (for the image: where no entry is zero). Training it with gradient descent is projected gradient descent on non-negative weights and biases of at least the minimum: the parameters of the next call are the unique feasible point nearest to where the step went. Evaluations in between, which store clamped parameters too, change neither the training nor any later output.", "quantifier": "all numbers of channels and pixels, parameters, images, differentiable losses, optimisers with any state, and histories of training steps and evaluations", "why_tests_cant": "a statement about derivatives at every point and about all histories of calls and optimiser steps", "anchors": ["neuralcompression/layers/_simplified_gdn.py: SimplifiedGDN.forward, SimplifiedInverseGDN.forward, _ClampMin, _clamp_min"]}
{"id": "C129", "title": "Functional LPIPS", "statement": "lpips accepts exactly the documented networks, weight versions and reductions; every pair of images has one number, independent of the rest of the batch, zero for equal images, symmetric and not negative; 'none' returns these numbers in order, 'sum' and 'mean' their sum and mean. With calibration it is the weighted sum over the layers; without, the average over the layers, and the version is ignored. It works where the images are.", "quantifier": "all networks, weights, images, batch sizes and argument values", "why_tests_cant": "arbitrary networks, images, batches and argument combinations", "anchors": ["neuralcompression/functional/_lpips.py: lpips, _load_lpips_model", "neuralcompression/functional/_multiscale_structural_similarity.py: _get_reduction_op"]}
{"id": "C130", "title": "Construction, calls and learning rate of a video training stage", "statement": "The module that trains a stage of deep video compression is built exactly for documented settings, can be called with images, trains the trainable weights of the stage with one optimiser and its trainable quantiles with another, and uses, in every batch of every run, the initial rate times the factor of the schedule to the power of the number of batches divided by the step size, however often training is interrupted and resumed.", "quantifier": "all constructor arguments, parameters, settings of the optimisers and histories of starts with any save times and ends", "why_tests_cant": "needs all histories of interrupted and resumed runs and all numbers of batches", "anchors": ["projects/deep_video_compression/dvc_module.py: DvcModule.__init__, forward, training_step, configure_optimizers", "projects/deep_video_compression/_utils.py: DvcStage.collect_parameters, forward", "projects/deep_video_compression/train.py: run_training_stage"]}
{"id": "C131", "title": "Devices of a training run of the video project", "statement": "In a training run of the video project every device goes through whole epochs in batches of the configured size; the devices of a run share the clips of an epoch, so that no clip is delivered to two of them and a step averages over different clips on every device; a configured seed makes the order of the clips reproducible; clips have the crop size and values in the documented range.", "quantifier": "all numbers of devices, workers, videos and clips, batch sizes, seeds, generators, histories of iterations, frame sizes and draws", "why_tests_cant": "needs every number of devices and workers and every history of random draws of several processes", "anchors": ["projects/torch_vct/datamodules/kinetics.py: KineticsDataModule.setup, train_dataloader, val_dataloader, test_dataloader, _video_transform", "projects/torch_vct/datamodules/vimeo.py: VimeoDataModule.train_dataloader", "projects/torch_vct/model_train.py: main, build_image_logger", "projects/torch_vct/config/train_config.yaml"]}
{"id": "C132", "title": "How far a pixel reaches in HiFiC coding", "statement": "What decoding gives at a pixel depends only on the pixels of the same image at most 580 rows and columns away (292 plus 32 for each residual block), and in the same way at all places a multiple of 64 apart: not on the other images of the batch, not on distant content, not on the size of the frame. So tiles at multiples of 64 can be coded on their own and fit together wherever they overlap by that margin. A latent depends on the pixels at most 34 away, its quantised value on those at most 258 away, a hyper-latent on those at most 146 away.", "quantifier": "all weights, numbers of features and residual blocks, lossless range coders, batches, image sizes, places and tiles", "why_tests_cant": "needs all weights and images; a test sees single pairs of images and cannot tell a small influence from none", "anchors": ["neuralcompression/models/_hific_encoder_decoder.py: HiFiCEncoder, HiFiCGenerator, _ResidualBlock", "neuralcompression/models/_hific_autoencoder.py: HiFiCAutoencoder, _conv, _deconv", "neuralcompression/layers/_channel_norm.py: ChannelNorm2D.forward", "neuralcompression/functional/_pad_image.py: pad_image_to_factor"]}
{"id": "C133", "title": "How far a pixel reaches in the video codec", "statement": "What the video transformer codec reconstructs at a pixel of a frame depends, in evaluation mode, only on the same clip of the batch, on that frame and the two before it, and there only on pixels at most 112 plus twice the reach of the transforms away (172 for ConvGDN, 376 for ELIC with three blocks), in the same way at all places a multiple of 64 apart and, from the third frame on, at all times: not on other clips, not on later or older frames, not on distant content, not on the size of the frame. The likelihoods of a window of 64 by 64 pixels, and so its rate, depend on less. So a cut-out at multiples of 64 can be coded on its own. The reconstruction has the length and size of the video. This holds if no latent is half-way between two integers before quantisation; with such ties a change of the first frame may stay visible for ever.", "quantifier": "all weights of transforms, token networks and transformers, bottleneck tables, numbers of channels and blocks, batches, clip lengths, frame sizes, places and parts", "why_tests_cant": "needs all weights and clips; a test sees single pairs of clips and cannot tell a small influence from none", "anchors": ["projects/torch_vct/model_pipeline.py: VCTPipeline.forward, VCTPipeline._pad, VCTPipeline.encode_and_decode_scenes, Dequantizer", "projects/torch_vct/neural/transforms.py: ConvGDN, ELIC", "projects/torch_vct/neural/entropy_model.py: VCTEntropyModel.forward", "projects/torch_vct/neural/patcher.py: Patcher"]}
{"id": "C134", "title": "An image of a VQ-VAE batch is coded alone, its indices are all that a receiver needs, but its pixels depend on each other", "statement": "In evaluation mode, for every configuration, all weights and every bottleneck of the library: (a) if an image occurs in two batches, at any places, with any other images, and both batches are processed, its reconstruction and its codebook indices are the same in both. (b) With a vector quantiser in the bottleneck and exact arithmetic, two images of the same size with the same indices have the same reconstruction. (c) Batches of images of any size are processed whenever the configuration makes sense, the bottleneck is made for the latents, and the padding is smaller than the image; the reconstruction has the size of the image and there is one latent pixel for each factor \u00d7 factor block, rounded up. (d) The projector gives the indices of the autoencoder for images whose sides are multiples of the factor. (e) An image cannot be coded in parts: with the default normalisation there are weights for which, at every distance, changing one pixel changes the reconstruction of the pixel that far away.", "quantifier": "all configurations, weights, bottleneck trees, batches, image sizes and contents", "why_tests_cant": "Independence must hold for all weights and all other images in the batch; a test compares a few batches of one model, up to a tolerance.", "anchors": ["neuralcompression/models/_vqvae_xcit_autoencoder.py: VqVaeXCiTAutoencoder.forward", "neuralcompression/models/_vqvae_xcit_autoencoder.py: _VqVaeXCiTConvEncoder, _VqvaeXCiTConvDecoder, _ResnetBlock, _AttnBlock, Normalize", "neuralcompression/models/_vqvae_projector.py: VqVaeProjector.forward", "neuralcompression/layers/_xca.py: XCA.forward"]}
{"id": "C135", "title": "What the U-Net discriminator computes: blocks and shortcuts, other images of the batch, reach of a pixel", "statement": "For every list of levels, all weights, both modes and every normalisation type: (a) wherever the shape of the image can be processed (C57) and no normalisation layer is given a single value, the discriminator returns logits of that size and changes no tensor of its caller; with a context it does the same for the image with the convolved, activated and resized context below its channels. (b) Every level adds a block and a shortcut of the same features, as in the paper. (c) Features go from the way down to the way up at every resolution, as in a U-Net. (d) The logits of an image do not depend on the other images of the batch. (e) The logits at a pixel depend on pixels near it only, and an image that looks the same there gets the same logits. (f) Every image that fits the levels is processed, whatever the normalisation type.", "quantifier": "all lists of levels, weights, normalisation types, modes, batches, image sizes and contents, and places", "why_tests_cant": "In-place layers, normalisation statistics and reach show only for particular weights, modes and sizes; the tests check shapes with one configuration.", "anchors": ["neuralcompression/models/_unet_discriminator.py: _UnetLevel.forward", "neuralcompression/models/_unet_discriminator.py: UnetDiscriminator.forward", "neuralcompression/models/_unet_discriminator.py: ConditionalUnetDiscriminator.forward", "neuralcompression/models/_unet_discriminator.py: build_norm_layer"]}
{"id": "C136", "title": "What deep video compression computes: other frames of the batch, decoded frames, pairs of the flow estimator, outputs", "statement": "For all settings of the parts and all weights of DVC: (a) what forward, compress and decompress give for a pair of frames does not depend on the other pairs of the batch: any selection of the batch, in any order, gives the selected outputs, strings and frames, or fails alike. (b) With range coders that give back the symbols, decompress of what compress writes is the estimate of image2 that forward gives in evaluation mode, clamped to [0, 1], at every pixel; the default model codes all pairs of frames of three channels with at least 16 rows and columns. (c) calculate_flow_with_image_pairs returns a pair per level from coarse to fine: image1 and image2 averaged over square blocks, the first warped; the last pair is image1 warped by the returned flow, and image2. (d) The outputs of forward belong together: image2_est is the returned residual added to motion compensation of image1, image1 warped by the returned flow and that flow. (e) The returned flow is the flow that the estimator calculates, and the returned residual is the difference between image2 and its motion-compensated estimate, as documented.", "quantifier": "all settings, weights, noise, batches, selections of a batch, frame sizes and contents, and range coders that give back the symbols", "why_tests_cant": "The values depend on all weights and on every pixel; tests look at shapes with a few sizes and random weights, and batches of one.", "anchors": ["neuralcompression/models/deep_video_compression.py: DVC.forward", "neuralcompression/models/deep_video_compression.py: DVC.compress", "neuralcompression/models/deep_video_compression.py: DVC.decompress", "neuralcompression/models/deep_video_compression.py: DVCPyramidFlowEstimator.calculate_flow_with_image_pairs", "neuralcompression/models/deep_video_compression.py: DVCMotionCompensationModel.forward", "neuralcompression/models/deep_video_compression.py: DVCTrainOutput"]}
{"id": "C137", "title": "What the image loggers show", "statement": "After every validation of a deep video compression stage the logger gets, with the step, mosaics with the clips from top to bottom and time from left to right, values cut to [0, 1]: references, frames to be coded and estimates, where the first reference is the first frame as the pretrained model codes it and every later one is the estimate of the frame before; the flow is shown by one colour map for all clips and times. The image and video codecs send grids: every stored image (or frame of the first stored video) once, row by row, in rows of eight (seven), and at the same place what the codec makes of it, cut to [0, 1].", "quantifier": "all numbers of clips, frames and images, all sizes, contents, networks and steps", "why_tests_cant": "Placement must be right for every number of images, also when the last row of a grid is not full, and every frame size; the callbacks need a logger and a training run and are not tested.", "anchors": ["projects/deep_video_compression/train.py: WandbImageCallback", "projects/illm/train.py: WandbImageCallback", "projects/torch_vct/model_train.py: WandbImageCallback"]}
{"id": "C138", "title": "The arithmetic coder's codes are a prefix code of nearly least average length", "statement": "encode returns bytes from 0 to 255. With room in the buffer, the code of a message is never the beginning of the code of another message of the same length under the same model; so codes of such messages can be written one after another without separators, and different sequences of messages give different streams. The lengths satisfy Kraft's inequality. For every distribution of the messages the average number of bits is at least its entropy and at most the cross entropy of the model, 0.0001 bits per symbol and ten bits; for symbols distributed as a table says, this is the entropy of the table per symbol.", "quantifier": "all agreeing adaptive models, all sets of messages of one length, all distributions on them, all tables", "why_tests_cant": "Statements about all pairs and averages over all messages of a length; a test can only compare a few codes.", "anchors": ["projects/jax_entropy_coders/jax_arithmetic_coder.py: encode, decode"]}
{"id": "C139", "title": "Losses and rates that a validation of the image project reports are averages over the images", "statement": "However the validation images are spread over non-empty batches and over devices, validation of the target-rate and of the GAN module reports under every key the average over all images of the per-image quantity: the distortion, the generator loss, the bits per pixel of latent, hyper-latent and both, for the soft and for the coded likelihoods, and the rate loss in which every image has its own weight: lam2 if its coded bits per pixel exceed the target of the current step and lam1 otherwise. The reported total loss is the weighted sum of the reported parts, total rates are sums of latent and hyper-latent rates, the rate loss lies between lam1 and lam2 times the total rate, and the report does not depend on batch size, device count or order of the images.", "quantifier": "every valid rate configuration, step, image size, weights, multiset of images and split of it into batches and devices", "why_tests_cant": "tests validate one split of a few images; a mean of batch means agrees with the mean of the images whenever the batches are equal", "anchors": ["projects/illm/target_compression_module.py: TargetRateCompressionModule.eval_step", "projects/illm/target_compression_module.py: TargetRateCompressionModule.rate_loss", "projects/illm/gan_compression_module.py: GANCompressionModule.eval_step"]}
{"id": "C140", "title": "What validation and test of the video project report are averages over the videos", "statement": "However videos of one length and size are spread over batches and devices, validation reports the averages over all videos of the mean squared error, bits per pixel, cost, weighted cost and PSNR of their frames, and the reported cost is lambda*255^2 times the reported distortion plus the reported rate. The test reports the averages over all videos, each with the same weight whatever its length and size, of the PSNR and bits per pixel before and after coding, with and without the first frame; this rate is all bits over all pixels if the videos have equally many pixels. A batch of more than one video or a video of one frame stops the test.", "quantifier": "all numbers of videos, lengths, sizes, likelihoods, reconstructions, weights and splits into batches and devices", "why_tests_cant": "tests look at one batch; means over batches and devices of unequal size are where averages go wrong", "anchors": ["projects/torch_vct/model_lightning.py: VCTModule.validation_step", "projects/torch_vct/model_lightning.py: VCTModule.test_step", "projects/torch_vct/model_lightning.py: VCTModule.rate_loss", "projects/torch_vct/model_pipeline.py: VCTPipeline.compute_rate"]}
{"id": "C141", "title": "Data sets do not depend on the order of directory listings, and a concurrent download is complete", "statement": "On every file system, whatever the order in which it lists a directory, CLIC2020Image and DIV2KDataset have the same images under the same indices, in the order of names, frames of a CLIC video are in order, and the checkpoint that evaluation finds is the same. In every schedule of its threads, a download of the CLIC videos that has ended has raised exactly if an archive could not be fetched, has written every file of the other archives with its content and nothing else, and a complete download repairs what killed ones left. A data set that is there is not downloaded again.", "quantifier": "all directory contents and listing orders, indices, checkpoint names, archives, earlier contents, thread schedules, failures and kill points", "why_tests_cant": "tests see the listing order of one file system and a few schedules of threads", "anchors": ["neuralcompression/data/_clic_2020_image.py: CLIC2020Image", "neuralcompression/data/_div2k_dataset.py: DIV2KDataset", "neuralcompression/data/_clic_2020_video.py: CLIC2020Video.__getitem__", "neuralcompression/data/_clic_2020_video.py: CLIC2020Video.download", "projects/bits_back_diffusion/bits_back_diffusion/script_util.py: update_checkpoint", "projects/bits_back_diffusion/bits_back_diffusion/script_util.py: parse_resume_step_from_filename"]}
{"id": "C142", "title": "Shared batch sizes, log entries and plots of the diffusion scripts", "statement": "A configured batch size is divided among the processes exactly if it is a multiple of their number, and then they have it together; otherwise the run does not start. Every entry that a script logs is sent under a key of its own with its value; after the logger is closed sending raises. For data of the documented shape a plot shows over the steps the mean of the iterations, a band of one standard deviation around it and the range of the values, which contains both.", "quantifier": "all batch sizes, numbers of processes, log entries, histories of the logger, and data of all sizes", "why_tests_cant": "tests use one number of processes and look at no plot", "anchors": ["projects/bits_back_diffusion/bits_back_diffusion/script_util.py: divide_by_n_proc", "projects/bits_back_diffusion/bits_back_diffusion/script_util.py: WandbOutputFormat.writekvs", "projects/bits_back_diffusion/bits_back_diffusion/script_util.py: WandbOutputFormat.close", "projects/bits_back_diffusion/bits_back_diffusion/script_util.py: plot_evolution"]}
{"id": "C143", "title": "The rANS coder's codes can be followed by other data, are a prefix code, and are of nearly least average length", "statement": "With three free bytes per lane and row and one more, encode succeeds, returns bytes from 0 to 255, and whatever bytes follow the code, decode returns the message and the start buffer followed by exactly those bytes. So no code of a message is the beginning of the code of another message of the same number of rows, for which the decoder starts in the same state; codes can be written one after another without separators, different sequences of messages give different streams, and a stream is read message by message. The lengths satisfy Kraft's inequality. For every distribution of the messages the average number of bits is at least its entropy and at most the cross entropy of the model, log2(1 + 2^(p-24)) bits per symbol, and 32 bits per lane and 8 bits; for symbols distributed as the tables say, the entropy is that of the tables per row.", "quantifier": "all precisions up to 24, numbers of lanes, agreeing CDF pairs and adaptive states, messages, start buffers, bytes that follow, sets of messages of one number of rows, distributions on them, and tables, also with symbols that never occur", "why_tests_cant": "Statements about all pairs of messages, all following bytes and averages over all messages of a length; a test can only compare a few codes.", "anchors": ["projects/jax_entropy_coders/craystack/coder.py: encode, decode", "projects/jax_entropy_coders/craystack/codecs.py: default_rans_codec, fixed_array_cdf_codec"]}
{"id": "C144", "title": "Gradients of the logarithms of the normal distribution are the derivatives of what is returned", "statement": "backward() through ndtr gives the normal density, and through NoisyNormal.prob the derivative of the probability by the value, the mean and the standard deviation, always finite. Through log_ndtr, log_cdf, log_survival_function and NoisyNormal.log_prob it gives the derivative of the returned logarithm by the value, the mean and the standard deviation, and through log_expm1 the derivative of the returned value for every positive argument: finite numbers, also where another branch of a torch.where is infinite or undefined. Violated: at the mean of the normal distribution the gradients of log_cdf and log_survival_function are NaN, as are those of log_prob half a unit from the mean; six or more standard deviations below the mean the gradient of log_ndtr is NaN because ndtr computes in single precision; log_prob has NaN gradients whenever an end of the interval around the value is that far out, so at every value when the standard deviation is at most 1/12.", "quantifier": "all arguments, means and standard deviations, both floating point types, each of the three variables, and for the violations all roundings and all accurate single precision error functions", "why_tests_cant": "NaN gradients appear only at particular points or in tails, and come from the branch that is not taken; gradient checks at sampled points pass.", "anchors": ["neuralcompression/functional/_ndtr.py: ndtr", "neuralcompression/functional/_log_ndtr.py: log_ndtr", "neuralcompression/functional/_log_cdf.py: log_cdf", "neuralcompression/functional/_log_survival_function.py: log_survival_function", "neuralcompression/distributions/_uniform_noise.py: UniformNoise.log_prob", "neuralcompression/functional/_log_expm1.py: log_expm1"]}
{"id": "C145", "title": "Gradients of soft rounding are its derivatives", "statement": "backward() through soft_round, soft_round_inverse and soft_round_conditional_mean gives the derivative of the returned function at every argument, also at integers where two pieces of the function meet, and for every temperature; the derivatives are positive. Violated: once the computed tanh of half the temperature is one, which is so in single precision for temperatures from 19 on, the gradient of soft_round_inverse at every integer, and of soft_round_conditional_mean half a unit above every integer, is NaN although the value is right.", "quantifier": "all arguments, temperatures and thresholds; for the violation all integers and all implementations of tanh that return one", "why_tests_cant": "NaN gradients occur only at isolated points, where samples of random inputs do not fall.", "anchors": ["neuralcompression/functional/_soft_round.py: soft_round", "neuralcompression/functional/_soft_round_inverse.py: soft_round_inverse", "neuralcompression/functional/_soft_round_conditional_mean.py: soft_round_conditional_mean"]}
{"id": "C146", "title": "Gradients of MS-SSIM are finite and those of the index", "statement": "backward() through multiscale_structural_similarity gives every pixel of both arguments a finite gradient, for all images large enough for the scales and all exponents that are not negative: also where a comparison is clipped at zero, where the derivative of its power is infinite. Unless a comparison used by the score is exactly zero, the gradient is the derivative of the index of the paper, for every reduction. It is zero for identical images, and, with the same exception, for images whose score is zero.", "quantifier": "all batches, sizes, channels, window sizes, parameters, exponents, pixels of either image and reductions", "why_tests_cant": "Clipped comparisons and powers below one combine to infinite intermediate gradients only for particular images; tests compare values, on a few images.", "anchors": ["neuralcompression/functional/_multiscale_structural_similarity.py: multiscale_structural_similarity, _ssim_multichannel, _ssim_single_channel, _pad_and_downsample"]}
{"id": "C147", "title": "Gradients of image warping are the derivatives of the result", "statement": "backward() through dense_image_warp (bilinear, any padding, both settings of align_corners) gives every component of the flow the derivative of the result, and a one-sided derivative where it looks exactly at a row or column of pixels (but for reflection with align_corners, which turns around there); every pixel of the image gets the derivative of the result. At zero flow, from which flows are learnt, every place of the flow gets a gradient if the image has a slope there. Violated: with the default arguments the horizontal flow of the first and last column and the vertical flow of the first and last row get no gradient at zero flow, for every image and every loss, and the same with reflection padding; with border padding the same for all places that look outside.", "quantifier": "all images, flows, sizes, losses, places and components", "why_tests_cant": "A gradient check on random flows misses the places where the interpolation has corners and cannot exclude wrong gradients for other sizes.", "anchors": ["neuralcompression/functional/_dense_image_warp.py: dense_image_warp"]}
{"id": "C148", "title": "A latent projector evaluates only, leaves its VQ-VAE alone, and evaluation changes nothing that is saved", "statement": "VqVaeProjector(vq_model) answers with indices that are a function of the image alone, those of the VQ-VAE in evaluation mode for images that need no padding, whatever train() and eval() calls and other calls of the two came before. Making it leaves the VQ-VAE as it was, and no call in evaluation mode or of frozen parts changes what is saved with the model. Violated: the projector shares its modules with the VQ-VAE, so putting the VQ-VAE into training mode puts the projector into training mode too; making it switches off the gradients of the VQ-VAE's encoder and bottleneck for ever; every call, also in evaluation mode, adds to the saved counters of the codebook.", "quantifier": "all histories of calls, train() and eval() of both, all networks, images and random numbers", "why_tests_cant": "The order of the calls on two objects that share modules is unbounded; a test sees a few orders.", "anchors": ["neuralcompression/models/_vqvae_projector.py: VqVaeProjector", "neuralcompression/models/_vqvae_xcit_autoencoder.py: VqVaeXCiTAutoencoder.forward", "neuralcompression/layers/_vq_bottleneck.py: VQBottleneck.forward"]}
{"id": "C149", "title": "GDN layers lose nothing, and an inverse layer undoes them", "statement": "For all values of the parameters, also negative ones before the clamping, SimplifiedGDN maps different images to different images, and every image whose values are below the reciprocals of the sums of the weights of their channels is an output. SimplifiedInverseGDN maps the images one to one onto all images. An inverse layer can undo a GDN layer. Violated: if a channel has a weight on itself, as in every new layer, no inverse layer, whatever its parameters, undoes the GDN layer.", "quantifier": "all numbers of channels, parameters with a positive minimum of the bias, sizes and images", "why_tests_cant": "Injectivity is about all pairs of images and all parameters; a test of one pair shows nothing.", "anchors": ["neuralcompression/layers/_simplified_gdn.py: SimplifiedGDN, SimplifiedInverseGDN"]}
{"id": "C150", "title": "Codes of the arithmetic coder sort like the messages, and a beginning of a code gives a beginning of the message", "statement": "If the model lays out the slots in the order of the symbols (as every table does), and two messages of any lengths differ first at a place where the first has the smaller symbol, then their codes differ first at a place where the code of the first has the smaller byte; codes of messages of the same length sort exactly as the messages. If a code is cut off, damaged or continued in any way after its first k bytes, the symbols at the beginning whose information content (with 0.0001 bits per symbol) plus 33 bits is at most 8k bits are still decoded: exactly those if only they are asked for, and as the first ones if more are.", "quantifier": "all models (with states), messages of all lengths, positions of the first difference, cuts and continuations", "why_tests_cant": "The claims compare all pairs of messages and all ways to damage a code; a bit that is carried over long stretches shows only in rare messages.", "anchors": ["projects/jax_entropy_coders/jax_arithmetic_coder.py: encode, decode"]}
{"id": "C151", "title": "Coding with the rANS coder can be done in steps", "statement": "decode returns the bytes that remain so that subsequent messages can be removed: decoding any number k of the rows of a code returns the first k rows; decoding the remaining rows from the remaining bytes returns the other rows and the start buffer; encoding rows and then further rows on top gives the code of all rows at once; replacing decoded rows by others (encoding on the remaining bytes) gives the code of the message with these rows replaced.", "quantifier": "all models (with states), messages, ways to divide them, start buffers, capacities with enough room, values of the free byte", "why_tests_cant": "The bytes agree by accident when the byte that is lost is not needed before the end of the message; which messages show the fault depends on all frequencies.", "anchors": ["projects/jax_entropy_coders/craystack/coder.py: encode, decode", "projects/jax_entropy_coders/craystack/_backend.py: insert_zeros, convert_to_embedded"]}
{"id": "C152", "title": "A saved model with coding tables can be restored", "statement": "Whatever was done with a model before it was saved (training, computing its coding tables once, many times or never), a newly built model with the same settings loads the file without an error and is then the saved model, with its parameters and all of its tables. Loading in any other model either restores everything or raises an error. After an error, a forced update gives the tables of the loaded parameters.", "quantifier": "all settings, parameters, histories of training and table updates of the saved and of the loading model, both ways of loading", "why_tests_cant": "The sizes of the tables depend on when update was called and on the values of the parameters; which files fit depends on the whole histories of both models.", "anchors": ["neuralcompression/models/_hyperprior_autoencoder.py: HyperpriorAutoencoderBase", "neuralcompression/models/deep_video_compression.py: DVC.update", "projects/torch_vct/neural/bottlenecks.py: ContinuousIndexedGaussianConditional.update_tables", "projects/torch_vct/neural/entropy_model.py: update", "projects/torch_vct/utils/checkpoint_loaders.py: load_model_checkpoint_from_config"]}
{"id": "C153", "title": "Gradients of the video bottleneck's rate", "statement": "In training, the gradients that the video bottleneck passes to the latent, to the predicted scale and to the predicted mean are the derivatives of the rate that it reports, although it rounds the mean, takes absolute values and bounds likelihoods and indexes. Where the likelihood is below its bound a descent step still moves the latent towards the mean, and above the largest scale it never makes the scale larger.", "quantifier": "all latents, predicted means and scales, noise values, upstream gradients, numbers of means and scales, scale ranges and likelihood bounds", "why_tests_cant": "The gradient passes through a chain of straight-through roundings, custom bounds and kinks; agreement with the derivative is a statement about limits at every real point.", "anchors": ["projects/torch_vct/neural/bottlenecks.py: GsnConditionalLocScaleShift.forward, ContinuousIndexedGaussianConditional.forward, Scaler", "projects/torch_vct/model_pipeline.py: compute_rate"]}
{"id": "C154", "title": "What the losses of the vector quantiser teach", "statement": "Commitment loss and embedding loss have the same value, the smallest mean squared error that any choice of codebook entries has. The gradient of the codebook is the derivative of the embedding loss, with the choice of entries re-evaluated and through the normalisation of the codebook, wherever every vector has one nearest entry and no entry of a normalised codebook has a norm of exactly 1e-12; the gradient of the latents is the gradient from the decoder plus the derivative of the commitment loss. The codebook never learns from the decoder or the commitment loss, nor the encoder from the embedding loss. An entry nearest to no vector gets no gradient. Descent steps never shorten an entry of a normalised codebook, small enough ones decrease the embedding loss, and steps on the commitment loss contract it by a known factor.", "quantifier": "all latents, codebooks, sizes, directions, upstream gradients and step sizes, with and without normalisation", "why_tests_cant": "Derivatives are limits at every real point; the losses involve an arg min over all entries, and the claims about steps range over every step size.", "anchors": ["neuralcompression/layers/_q_bottleneck.py: QBottleneck.quantize_vectors, VQOutput", "neuralcompression/layers/_vq_bottleneck.py: VQBottleneck.forward"]}
{"id": "C155", "title": "Gradients of the training losses", "statement": "The gradients that the adversarial losses (binary cross-entropy and OASIS, for generator and discriminator), the MSE-LPIPS distortion and the rate-targeting loss pass to logits, images and likelihoods are the derivatives of the reported losses in every direction, wherever the losses have a value: also at logits of zero, at zero features and for equal images. The normalisation of LPIPS never amplifies a gradient by more than a constant. A generator that the discriminator sees through keeps at least half of its gradient. OASIS gradients of all classes at a position sum to zero. In the rate loss each image is weighted by whether its quantised rate is above the target, and the gradient is right unless that rate moves and is exactly the target.", "quantifier": "all logits, labels (ignored ones included), targets, networks with a right backward pass, images, likelihoods, weights, directions and batch sizes", "why_tests_cant": "Derivatives are limits at every real point; the code relies on kinks that cancel, on a protected square root and on a comparison that carries no gradient.", "anchors": ["neuralcompression/loss_fn/_binary_crossentropy_loss.py", "neuralcompression/loss_fn/_oasis_loss.py", "neuralcompression/loss_fn/_normfix_lpips.py: normalize_tensor, NormFixLPIPS", "neuralcompression/loss_fn/_mse_lpips_loss.py: MSELPIPSLoss", "projects/illm/target_compression_module.py: rate_loss"]}
{"id": "C156", "title": "Settings of the video bottleneck: accepted means usable", "statement": "A video bottleneck that the constructor accepts gives a likelihood between 1e-9 and 1 for every element and, after update, a table row for every symbol; settings that cannot do this are refused with ValueError. (As written: the constructor refuses exactly smallest scales that are not positive, and scalers whose number of bins is not the number of scales; table sizes are not checked. Likelihoods are numbers exactly if the number of scales is not one. update succeeds exactly with a mean and at least two scales; it raises RuntimeError for negative sizes, IndexError for empty tables, AssertionError for one scale, and then leaves the object without tables. After a successful update, update without force changes nothing.)", "quantifier": "all integer numbers of means and scales, smallest scales, tail masses, inputs, predicted means and scales, noise, both modes, with and without force", "why_tests_cant": "The settings are unbounded integers and reals, and the failure is a NaN in every output or an exception at the first call after training.", "anchors": ["projects/torch_vct/neural/bottlenecks.py: Scaler, ContinuousIndexedGaussianConditional, GsnConditionalLocScaleShift, update_tables, forward", "projects/torch_vct/neural/entropy_model.py: VCTEntropyModel.__init__"]}
{"id": "C157", "title": "Gradient clipping", "statement": "With a positive limit and clipping by norm, the gradients that an optimiser sees in image training (with and without a discriminator) and for each P-frame of video training are those of the one loss of that step, scaled by one positive factor; their joint Euclidean length is at most the limit, they are unchanged exactly if their length is at most the limit less a millionth, and else they are as long as the limit up to a millionth. Clipping by value limits each entry and keeps its sign. Model and discriminator are clipped separately, quantiles never; leftover gradients of earlier steps play no part; gradients of parameters of other optimisers are not touched. Image training raises exactly for a limit with an algorithm that is neither norm nor value in any letter case, and does not clip for a limit that is not positive. (Video training instead stops for a limit of zero and climbs the loss for a negative one.)", "quantifier": "all parameters, gradients (absent ones included), leftover gradients, limits, algorithm names, weights, losses, rules of the optimisers and numbers of P-frames", "why_tests_cant": "Gradients are arbitrary real vectors over arbitrarily many parameters, and a wrong optimiser or a forgotten reset only shows for particular lengths and histories.", "anchors": ["projects/illm/target_compression_module.py: TargetCompressionModule.training_step", "projects/illm/gan_compression_module.py: GANCompressionModule.training_step", "projects/deep_video_compression/dvc_module.py: DvcModule.training_step"]}

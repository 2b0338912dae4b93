# Formal model of go-tfhe in Lean 4

The source under study is `/repo` (thedonutfactory/go-tfhe, pinned). It is read as text only.
The model is in `lean/Verif/Model`, independent specifications in `lean/Verif/Spec`,
helper lemmas in `lean/Verif/Lemmas`, and the property theorems (named `Cnn_...`)
with their non-vacuity examples in `lean/Verif/Props`.

## Trusted base

* Lean 4.33.0's kernel, and Mathlib definitions used in statements.
* Axioms: every theorem depends on at most `propext`, `Classical.choice`, `Quot.sound`.
  (`#print axioms` on any theorem of `Verif/Props` shows a subset of these three.) Of the theorems in
  `MANIFEST.json`, four need `propext` only (`C15_inPlace_wrong`, `C22_needs_blocks`, `C22_needs_length`,
  `C97_basic`), nineteen need `propext` and `Quot.sound` (`C03_negative_size`, `C07_mul`,
  `C07_short_operand_panics`, `C13_empty_panics`, `C18_total`, `C25_out_of_range`, `C26_if_equal`, `C27_fft`,
  `C34_dirty_buffer`, `C45_copy`, `C52_disjoint`, `C58_copyFrom`, `C64_blockCount`, `C65_secretKey`,
  `C70_separate`, `C81_copy_clear`, `C81_clearTRLWE`, `C81_copyToDecompBuffer`, `C95_identity`), and every
  other one needs all three. No axiom is
  declared, nothing is `sorry`, and neither `native_decide` nor `bv_decide` is used.
* The faithfulness of the hand-written model to the Go text. Every model definition cites the file
  and lines it transcribes, and says where it simplifies.

## Modelling conventions

* `params.Torus` (uint32) is `BitVec 32`, so all wrap-around arithmetic is exact.
  Go `int` is modelled by `Int` or `Nat`: overflow of 64-bit ints is outside the model,
  except where stated (shifts and conversions are modelled with their Go semantics).
* A Go slice is a `List`; a function that may panic returns `Option`, with `none` for
  any panic: index out of range, division by zero, negative shift, explicit `panic`.
  Loops are left-to-right monadic folds over index ranges, as in the source. Slices are
  values except in the modules that model aliasing (`Model/Evaluator`, `Model/PoolEval`,
  `Model/Alias`, the heap parts of `Model/Lut` and `Model/ProxyReenc`), where buffers live in an explicit heap and functions take references.
* Randomness is an explicit argument (mask words, Gaussian samples, coins): every theorem
  quantifies over all tapes. Noise hypotheses are on realised noise. The only probabilities are those of uniform mask
  words and uniform coins: `MaskProbLe`, `MaskProbGe` (`Spec/Mask`) count the masks of an event among all `(2^32)^n`
  (C72, C73), `CoinProbLe`, `CoinProbGe` (`Spec/Coins`) the coin tapes (C75). Gaussian samples have no distribution,
  except in C78, C79, C82, C83, C87, C88, C89, C90 and the `_random` theorems of C71. There `NoiseDraws` (`Spec/Noise`) is assumed: the draws are
  independent and symmetric, with exponential moments at most those of a normal variable of the given standard
  deviation. Independent normal variables cut off to any number of binary places satisfy it (`noiseDraws_normal`). That
  `math/rand` provides such draws is not proved, and is false in one respect: every encryption seeds a new generator
  (`rand.New(rand.NewSource(rand.Int63()))`), and `math/rand` reduces seeds modulo 2^31-1, so among the about 30000
  encryptions of a cloud key two with equal masks and noise are not unlikely. C92 is about this: there the functions
  read their tapes from a generator (`Model/Rand`), any state machine with the methods the code calls. The only
  assumption on it is the documented law `SeedLaw` of the Go standard library (seeds with the same remainder modulo
  2^31-1 give the same sequence), a hypothesis of the theorems, with an instance (`bitSource`). In the birthday bound the
  values of `rand.Int63()` are independent and uniform on [0, 2^63). The other theorems about probabilities are about
  ideal draws.
* `float64`: finite doubles are exact rationals. Operations that are exact in IEEE-754
  (scaling by powers of two, `math.Mod`, conversion of small ints) are modelled exactly. Operations
  that round are modelled through an arbitrary rounding function `fl` that satisfies `IsRound`, the law of binary64:
  `|fl x - x| <= 2^-53 |x|` for `2^-1022 <= |x| <= 2^1023`, `|fl x - x| <= 2^-1075` below (gradual underflow), and
  53-bit numbers kept. Nothing is assumed about larger arguments, so every theorem with `IsRound fl` also covers the
  absence of overflow (C93 says so explicitly). `int64(x)` and `int(x)` truncate; Go leaves the result open outside the
  range of the integer type, which the arguments never leave (`C93_int64_mulPoly`, `C93_int64_accum` for the inverse
  transform; `F64ToTorus` reduces modulo 1 first). NaN and infinities are not modelled, they cannot arise from finite
  operands without overflow or division by zero.
* The Fourier transform (`Model/Fft`) is written over an arbitrary arithmetic `Arith R`: over the
  reals (`realArith`) for the algebraic theorems, and over rationals with a rounding after each
  operation (`floatArith fl fu pi cexp`) for the error bound. `math.Pi` is the nearest double;
  `cmplx.Exp` is any function within 2^-52 of the true exponential (a hypothesis, shown satisfiable).
  Go lets the compiler fuse a product with the sum or difference that consumes it (arm64, ppc64, s390x, amd64 with
  `GOAMD64=v3`): `fu : Fusing` is that choice, made separately at every place and iteration; the theorems hold for
  every `fu`. Unchecked block accesses
  through `unsafe.Pointer` are ordinary checked accesses, `none` meaning out of the slice.
* The ciphertext code sees the transform only through the record `FourierOps`, an interface with the laws
  `FourierLaws` (`Spec/Fourier`). The ciphertext theorems hold for every lawful backend; the code's
  own transform is shown lawful in both arithmetics (`Props/Fft`, `Props/FftFloat`).
* Goroutines: `BatchBlindRotate`, the key generators and concurrent bootstraps are state machines whose steps
  are interleaved arbitrarily. The Go memory model (word tearing, reordering) is not modelled.
* Not modelled: `fmt` output, JSON/serialisation (there is none), memory addresses (other than those of C94),
  garbage collection, running time, actual randomness quality, the generator inside `math/rand`.

## Plan per property

| id | what is modelled, how it is proved |
|----|----|
| C01, C02 | `utils.go` conversions over exact rationals; algebra on floor/trunc |
| C03, C04 | the conversion loops over `BitVec w`; induction over the bit list |
| C05, C06 | encrypt/decrypt loops; phase algebra in the ring `BitVec 32`, exact iff on the sign test |
| C07, C08 | the slice loops; sums over the ring; heap model with three references for AddAssign |
| C09, C10, C11 | message encoding with float scale; integer division lemmas |
| C12 | map over slices; composition of C03/C05 |
| C13-C15 | the two branches of the rotation loop; antiperiodic extension as the spec; in-place heap version; the pool of four buffers; the private rotation of `trgsw` equals the exported one or panics |
| C16, C17 | digit extraction by shift/mask; induction on the number of levels; both loops reduced to the same table; `C16_decompose_all` for every base `2^BGBIT` and every number of levels with `L*BGBIT <= 32`, the levels are instances |
| C18 | the in-place swap loop; invariant on the (i,j) pair |
| C19, C20 | FFT stages as residues modulo X^(M/m)-c; invariant by induction on stages; negacyclic product by evaluation at roots |
| C21 | l2/max-norm error propagation through the forward stages and l1-norm propagation through the inverse stages, with the rounding of binary64, subnormal numbers included |
| C22 | all reads/writes of the Fourier code go through checked accessors in the model; success proved |
| C23 | decision logic over all ints |
| C24-C26 | TRLWE loops; negacyclic product parameter; exact error term |
| C27-C29 | row phases; bilinearity; decomposition identity from C16 |
| C30 | heap model of CMuxAssign for each aliasing pattern; counterexample for ct1 |
| C31 | floor/rounding arithmetic, for every degree up to `2^30` |
| C32 | induction over the CMUX steps, realised error |
| C33-C35 | key switching as sums of digits; rounding lemma; `_all` theorems for every basebit and number of digits with `basebit*t <= 31`, the levels are instances |
| C36 | commuting disjoint writes; any permutation/interleaving gives the same array |
| C37 | phases of generated entries |
| C38-C41 | evaluator heap model; refinement to pure functions for any prior contents |
| C42 | pooled model of trgsw.BlindRotate; refinement to the same pure function |
| C43-C47 | gate algebra, margins; induction over circuits and widths |
| C48-C50 | batch gates, schedule machine, level change; the claims are false as stated: negations with witnesses plus `_partial` positive theorems |
| C51-C58 | encoder with rounding model; table loops; windows; crash-point model for the custom generator |
| C59-C62 | public key and re-encryption loops; same digit machinery as key switching |
| C63-C65 | finite case analysis over the level switch, all ints |
| C66 | in full not expressible: computational hardness assumption (LWE) against polynomial-time adversaries. The information-theoretic part is proved: `Spec/Game.lean` draws a key and lets the reader choose plaintexts one after the other; scalar products with a random binary key are a universal hash of the key, so the leftover hash lemma (`leftover_hash`, by Cauchy-Schwarz and counting collisions) bounds the advantage of every test by `sqrt(2^(32k)/2^n)` |
| C67, C68 | C43-C46 and C56 instantiated with the float64 transform; the error bound of C21 evaluated at each level |
| C69 | a register machine over Fourier polynomials with aliasing; invariant: each register holds the values of an integer polynomial that reduces to the specified one |
| C70 | step machine with a program counter per goroutine; projection of a schedule to one goroutine; a bad schedule for a shared evaluator |
| C71 | truncation of small samples to zero; false at Uint2-Uint8: an adversary program (`Spec/KeyRecovery`) inverts a mask in Z/2^32[X]/(X^N+1) by exponentiation and is proved to output both keys; `_partial` positive theorem for the other levels |
| C72 | the number of masks for which rounding leaves the window, by a counting form of Chernoff's bound (moment generating function of one rounding error; `Lemmas/Chernoff`, `Lemmas/DriftCount`); combined with the per-ciphertext theorems of C43 and C56, restated for any bound on the rounding (`Near`) |
| C73 | false at Uint6, Uint7 and Uint8: a lower bound on the number of failing masks by the characteristic function of the rounding error (`Lemmas/DriftLower`, `Lemmas/DriftFar`), at Uint7 and Uint8 for every key of ordinary weight, at Uint6 for heavy keys (ordinary keys: at least one mask in 1000 fails); `C73_partial` for Uint1-Uint5 from C72 |
| C74 | a delegatee's program (`delegatorKey`) that decrypts one entry per key bit is proved to output the delegator's key, from C60's description of the entries |
| C75 | coin tapes (`Spec/Coins`); the re-encrypted phase is a constant minus a signed selected sum (`reenc_phase`); upper bounds by Chernoff, lower bound at 80 bits by a trigonometric polynomial of degree 6 below the indicator of a large sum (`Lemmas/TailLower`, `Lemmas/CoinCount`) |
| C76 | meaning with a noise count per value (`Spec/MsgProgram`), induction over the program with the invariant "every wire encrypts its value with at most count × η noise, every prepared table still holds its function" (`C76_program`); end to end with the `float64` transform for realised and for worst-case noise |
| C77 | the loops of the two example programs, by induction over the inputs, and their fixed `main` inputs; end to end with the `float64` transform |
| C78 | the noise of a bootstrapping is split exactly (`bootNoise_split`) into the draws' part, a sum over all draws of integer coefficient times integer part of the draw, and a bounded rest; the coefficient of a draw depends only on earlier draws (`keyCoef_congr`), so the exponential moments multiply up by induction over the draws (`adaptive_mgf`), and Markov gives the tail. Gates, table look-ups and key switching follow with numbers per level. The input ciphertext is fixed before the noise of the cloud key is drawn; outputs of earlier gates under the same key are not covered, because they depend on all draws |
| C79 | tail of one draw (`draw_tail`) against the exact decryption margins of C05, C06 and C09 at every level |
| C80 | (`Props/Buffers`, `Props/BufferTables`) a memory that numbers `make` calls (`Model/Buffers`); a relation `Makes` ("creates exactly these slices, in this order") composes over the constructors, and gives separation by induction over the sequence of calls. This justifies the different names (`TRef`, `LRef`, `PRef`) of buffers in `Model/Evaluator` and `Model/PoolEval` (`C80_names`) |
| C81 | direct; `log2` by strong induction, the clearing loops through their states after `i` iterations |
| C82 | the phase after delegation is the plaintext minus the rounding of the mask plus a sum of noise with random signs and a sum of noise (`delegate_phase`); the signed part has, given the public key's noise, a sub-Gaussian moment whose variance is a quadratic form in that noise, and the moments of squares (`mgf_sq`) take the average over it (`joint_tail`); masks by counting: non-zero digits (`card_digits`) and rounding (`card_round`) |
| C83 | a hop adds an error that depends on the ciphertext it is given (`hop_phase`), whose exponential moment has a bound that does not (`hop_mgf`); so the moments multiply along the chain (`chain_mgf`, induction over the hops) and Markov's inequality bounds the tail (`chain_tail`). The example program shares the key of its first hop between six ciphertexts: union bound over its seven decryptions |
| C84 | where two binary keys differ, the word of the mask enters the phase under the other key with coefficient `±1`; the phase is a homomorphism onto the torus plus a constant, so all its fibres have the same size (`card_fiber_mul`). For TRLWE the same for each coefficient, since products with binary keys are exact in `float64` (C21). All coefficients together (`C84_trlwe_joint`): modulo X^N + 1 with N a power of two, a polynomial with an odd coefficient divides 2 (`half_aeval`: it is `(X-1)^v w + 2g` with `w(1)` odd and `v < N`, and `(X-1)^N` is 2 times a unit), so the products with the difference of the keys contain every even vector, and an even offset makes every sign an independent coin (`uprob_signs`). For the re-encryption key all words but one are fixed (`uprob_fiber`); the remaining one picks up one rounding and `t` noises (`pickUp`) |
| C85 | after the first step the mask of the accumulator is, given the masks of earlier entries, nearly uniform in its low 14 bits (`LowBits`: a uniform polynomial times a decomposition with an odd digit, reduced mod `X^N+1`; a decomposition with all digits even has probability `2^-512`); so what step `i` loses, less its mean, has a conditional exponential moment (`Chain`), the moments multiply along the steps (`LostChain`) and Markov's inequality gives the tail (`lostFluct_tail`) |
| C86 | C85 for the fluctuation. The mean is a sum over the steps of a signed partial sum of the level-1 key (`wave`), evaluated at the exponents of the later steps. For a uniform mask these exponents form a random walk on `Z/2N` run backwards (`Walk`), so the exponential moment is bounded by the spread of the wave; for a uniform key the spread is a quadratic form in random signs, whose exponential moment is computed by Fourier analysis of the wave and a Rademacher bound (`Wave`, `Rade`, `spread_mgf`). The weights of the keys by Hoeffding's inequality |
| C87 | union bound over the weights, the noise of the two encryptions (C79), the noise of the cloud key with rounding errors below the limit (C78) and the two parts of the rounding errors (C85, C86). The noise takes countably many values, so products of measures are bounded by summation over these values, without measurability of the program (`prod_discrete_le`) |
| C88 | each gate of the session is one run of C87 on a projection of the random numbers (two different masks of a uniform family are uniform, `session_gate`; `le_map_apply` needs no measurability of the event); the cloud key does not depend on the schedule (C36) and a gate not on the history of the evaluator (C38); union bound over the gates |
| C89 | as C87 and C88 with a table instead of the constant test vector: the entries of a table for two messages are 0 or 1/4 up to sign, so until the first step that changes the accumulator (`firstMove`) the difference of rotations vanishes and nothing is lost; the steps before that one all lie in one half of the circle, so starting one step later costs a factor of two (`UpperHalf`, `LowerHalf`, `avg_prefix`, `lut_bias_tail`); fluctuation as in C87 (`session_fluct`); then C77 turns small noise into the right output; union bound over the look-ups (`lookup_jobs`); a demo with any modulus never panics (`demoFunction_runs`) |
| C90 | the mask of the new ciphertext, times ±1 or ±2 and shifted by the other input, is uniform up to the last bit (`exists_pairEquiv`), and neither the rounding to 2N steps nor the blind rotation sees the last bit (`SameRounding`, `sameRounding_rep`); the body takes one of 2049 rounded values, over which a union bound is taken, so the noise may depend on the earlier results in any way (`step_fail`); the earlier result depends on all other random numbers, on the Gaussian ones through countably many values (`step_measure`, a skew product); the rounding of the mask is bounded in probability as in C72 (`step_drift`), mean and fluctuation of the lost bits and noise of the keys as in C87; induction over the program with the set of encryptions each register depends on (`regFuns_fail`) |
| C91 | the evaluation point of place `x` from `fft_eval` is `exp(-iπ(4 rev(x) - 1)/N)` (`pt_eq_root`); the table loops of `Verif.Model.Mono` give the same index after bit reversal (`newTwMonoIdx_eq`), and exponents may be reduced modulo `2N` (`root_emod`); exact arithmetic (`Props/Mono.lean`). The tables are modelled apart from `PolyEval` because no function reads them |
| C92 | false, negated: a seed may be replaced by its remainder (`exists_small_seed`), so trying 2^31-1 seeds finds every key and every ciphertext (`searchSeeds_iff`); a match with the other plaintext would be read wrongly by the holder of the secret key too (`C92_false_reader`). Pigeonhole for repetitions; birthday bound by counting tuples in different classes one place after the other (`card_distinct_le`), each remainder being taken by at least 2^32 of the 2^63 seeds; the entries of the key-switching key by C36. The rest: union bound over the guesses; with a generator that returns the entries of a list one after the other (`tapeSource`), each function equals its model on the successive entries of that list (`C92_tape_*`), which connects C92 with the statements about masks, noise and coins elsewhere |
| C93 | crude bounds `2^n` on all operands, a stage adds 6 to `n` (`stage_range`), sums of products grow linearly (`acc_le`); two arithmetics that agree up to 2^700 give equal results by induction over the stages and over the sum. Underflow is absorbed in the error bound of C21 by 2^-400 added to the sizes (`tinyE`). For `int64` the error analysis of C21 without its bound on the error gives coefficients below 2^113, and the reduction modulo 2^32 then leaves less than 2^63 even with its own rounding errors (`modQ_small`) |
| C94 | false, negated: `N + 16` and `N + 8` are multiples of 16 and 8, so the offset is zero (`newAlignedAt_eq`) and the address is that of the allocation, a parameter of the model |
| C95 | as C56, with the rounded phase in the slot of `z mod m` shifted by `N` per wrap (`slot_of_steps`); the table is antiperiodic (`TableFor`), decoding of any integer number of steps reduces modulo `2^k` (`decodeMsg_pow2`); spec `antiValue` in `Spec/PbsOverflow.lean` |
| C96 | programs are lists of instructions (`Spec/Linear.lean`: integer semantics `LinInstr.val` and noise bound `LinInstr.bound`), run on ciphertexts by `LinInstr.run`; induction over the program with C07 (`runLin_hold`); decoding of any number of steps `decodeMsg_any` |
| C97 | every preparation is a linear form in the two ciphertexts (`gatePrepare_eq`), and the forms of a gate and of its basic gate on negated inputs are equal (`lin_basic`); the bootstrapped value depends on the prepared ciphertext and the keys only (`gateBootstrap_eq`). The translation of circuits (`Spec/Rewrite.lean`) keeps a map from old wires to new ones; the two runs are related by induction on the circuit (`Same`, `lower_step`) (`Props/Rewrite.lean`) |
| C98 | the linear form of the gate (`gatePrepare_eq`) cancels to the trivial ciphertext of a bit (`trivialCt`), of which only the body is rounded (`near_trivialCt`); then `boot_bool`. The exception is a trivial ciphertext with phase -1/16 (`Props/Cancel.lean`) |
| C99 | `runServer` (`Model/Tenants.lean`) interleaves gate calls of many clients, with a cloud key per client, on one `EvState`; every call gives the same ciphertext on every good evaluator state (`run_same`, from `gateBootstrap_eq`), so induction over the requests projects the run to one client (`C99_server`); calls do not overlap in time, concurrent calls are C70 (`Props/Tenants.lean`) |

## Which code is modelled

| package | modelled | not modelled |
|----|----|----|
| `utils` | all | the random generator itself (its interface and the law of its seeds in `Model/Rand`, `Spec/Rand`) |
| `params` | all | |
| `bitutils`, `tlwe`, `key` | all | |
| `poly` | constructors, aligned constructors, bit reversal, twiddle and monomial tables, both transforms, conversions, pointwise Fourier operations, `MulPoly` family, `PolyMulWithXKInPlace`, decomposer, all buffers and pools (`BufferManager`, `evaluationBuffer`), helpers | |
| `trlwe`, `trgsw`, `cloudkey` | all functions | |
| `evaluator` | all | |
| `gates` | all single and batch gates | |
| `lut` | encoder, generator, tables | |
| `proxyreenc` | all | |
| `examples/add_two_numbers`, `examples/simple_gates`, `examples/programmable_bootstrap`, `examples/proxy_reencryption`, README adder | the computation | printing and timing |

## Disagreements between documented behaviour and the code

Each item is a theorem about the model of the code as it is.

1. `BatchXNOR` shifts by -1/4 where `XNOR` shifts by +1/4, so it computes XOR
   (`C48_batchXNOR_is_xor`, `C48_batchXNOR_false`).
2. `Evaluator.ShallowCopy` builds a decomposer with one level, so every external product, CMUX, blind rotation
   and bootstrap on the copy panics (`C41_shallowCopy_panics`).
3. The results of `BatchBlindRotate` are pointers into the pooled evaluator's TRLWE buffers. When the pool hands
   the same evaluator to a second goroutine, the first result is overwritten (`C49_reuse`, `C49_false`,
   `C48_reuse_false`).
4. `globalEval` in package `gates` is sized once, for the level in force at start-up (128-bit). After a change of
   `CurrentSecurityLevel` the gates work only where the sizes still fit (`C50_gates_partial`) and panic at others
   (`C50_panics_2`, `C50_panics_3`, `C50_panics_4_to_8`, `C50_panics_80_110`, `C50_false`).
5. Sign flips use `^Torus(0) - x`, which is `-x - 1`. Rotation is one unit off per wrapped coefficient (`C13_mulXk`);
   sample extraction at `k` is off by the sum of the key bits above `k` (`C25_extract`).
6. `CMuxAssign` with the output equal to `ct1` computes something else (`C30_out_is_ct1`, `C30_out_is_ct1_wrong`).
7. `SampleExtractIndex2` compares the TRLWE dimension with the level-0 dimension, which differ at every level, so it
   always panics, and with it `bootstrapWithoutKeySwitch` (`C26_panics`, `C26_bootstrapWithoutKeySwitch`).
8. `GenLookUpTableCustom` does not restore the encoder if the user's function panics (`C54_panic_witness`).
9. A pooled bootstrap result is overwritten by the fourth later one (`C40_overwritten`).
10. `Constant(false)` is one unit above -1/8, because of `1 - mu` in integer arithmetic (`C45_constant`).
11. `NOT` leaves the decryption unchanged at the two phases 0 and 2^31 (`C45_not_boundary`).
12. `ReencryptTLWELv0` panics for every input when `basebit*t >= 32`, though the constructors accept such
    parameters (`C62_panics`, `C62_constructed_panics`).
13. `PolyMulWithXKInPlace` is wrong with `result == a` unless `k` is a multiple of `N` (`C15_inPlace_iff`). The pooled
    `PolyMulWithXK` makes such a call when it rotates its own result of four calls before (`C15_pool`, `C15_pool_reuse`).
14. `TLWELv1.DecryptBool` reads `t.P[len(key)]`, so an over-long key panics (`C06_long_key_panics`).
15. `F64ToTorus` truncates toward zero, so shifting across zero by an integer is not exact
    (`C02_crossing_zero_changes`).
16. The gadget decomposition truncates instead of rounding: the error is one-sided (`C16_error`).
17. Worst-case noise bounds exceed the margins for the shipped parameters and typical keys. The gate and circuit
    theorems are therefore stated with the realised noise of each bootstrap; the `_worst_case` forms have bounds in
    terms of the key weights and noise and are satisfiable (examples beside them).
18. Single gates called from several goroutines share `globalEval`; a schedule exists under which one gate returns the
    other's result (`C70_shared`, `C70_shared_wrong`). The source comment says "single-threaded operations"; the
    README does not.
19. At Uint2 to Uint8 the level-1 noise deviation is below 2^-38, and `F64ToTorus` truncates toward zero, so every noise
    word of the bootstrapping key is zero (`C71_noise_zero`, `C71_false`) and both secret keys can be computed from the
    cloud key (`C71_keys_recovered`, `C71_level`; with the library's `float64` transform, `C71_float`). At most a
    fraction 2^-n of the masks of one row per entry does not satisfy the condition of these theorems (one odd coefficient
    sum): `C71_probability`. Over the noise the recovery fails with probability at most 2^-1000 (`C71_noise_random`,
    `C71_random`).
20. `TLWELv0.Mul` is the element-wise product, as its comment says; it does not multiply messages
    (`C07_mul`, `C07_mul_not_homomorphic`).
21. At Uint8 and Uint7 the rounding to 2N = 4096 steps before the blind rotation is too coarse for the announced 256 and
    128 messages: at least a fifth (Uint8, key weight at least 500) or a sixtieth (Uint7, weight at least 540) of all
    fresh encryptions of the middle message bootstrap to a wrong message under the identity function (`C73_levels`,
    `C73_false`). At Uint6 (64 messages) the fraction is at least 1/1000 from key weight 490 on and at least 1/41 from
    weight 1034 on (`C73_uint6`, `C73_false6`).
22. `CHANGELOG.md` lists "No secret key exposure in asymmetric mode". The delegatee's key is not exposed, but the
    delegator's is: the delegatee computes it from the re-encryption key, in either mode (`C74_delegatee`,
    `C74_symmetric`, `C74_asymmetric`). The package documentation speaks of delegating access to ciphertexts only.
23. Asymmetric re-encryption adds the noise of about half of the `2n` zero encryptions for every non-zero digit. At 80 bits
    at least one key in 299 flips a given Boolean (`C75_level80`, `C75_false`); `CHANGELOG.md` gives an accuracy of 100 %.
24. The comments of `evaluator/buffers.go` give about 250 KB for the buffers of an evaluator, and about 30 KB for block
    rotation. At the default level the pool takes 504252 bytes, 253952 of them for block rotation, which no operation
    uses (`C80_documented_size`). `MemoryUsage()` takes most Fourier polynomials for twice their size, and every LWE
    ciphertext for one of degree `N`, so it reports too much, but less than twice the truth (`C80_memoryUsage`; exact difference in
    `C80_overcount`).
25. `NewTRLWELv1FFTDummy` (never called) makes slices of length `2N`, twice the length of a Fourier polynomial
    (`C80_dummy`).
26. The private copy of the rotation in `trgsw.go` (never called) lacks the correction of a negative remainder, so it
    panics for every negative exponent that is not a multiple of `2N` (`C13_private`).
27. All randomness comes from `math/rand`, in generators with 2^31-1 possible sequences. Every secret key is in a list of
    2^31-1 keys that anyone can compute (`C92_false_keys`), against 2^1199 or more binary keys; everything encrypted with
    a public key can be read with the public key (`C92_false_reader`); an asymmetric re-encryption key, which the comments
    call the secure way, gives the delegator's secret key to anyone with the delegatee's public key
    (`C92_false_delegation`); in every cloud key two entries with the same randomness occur with probability at least
    9/100 (`C92_false_ksk_levels`).
28. `README.md` (lines 49, 78, 91) uses `key.NewCloudKey` and `key.CloudKey`, which are in package `cloudkey`; the
    package is not part of the model's names, so there is no theorem about this.
29. `NewPolyAligned` and `NewFourierPolyAligned` promise memory aligned to a cache line, but take the remainder of the
    length instead of the address, so the offset is always zero (`C94_offset_partial`, `C94_false_aligned`).

## Testing the theorems against wrong programs

`seeded/LOG.jsonl` has one line per seeded bug: the edited definition, the edit, the claim it breaks, and the
theorems whose proofs then failed. The edits are made in a scratch copy of `lean`.
An edit that broke no proof has an empty `failed` list. Where the edit was a wrong program, `tightened` names the
theorems added or strengthened because of it, and `note` says what was missing. `claim_theorems_not_rebuilt` lists
theorems behind a module that failed, about which that run says nothing; `claim_theorems_still_proved` lists theorems of
the same property that do not depend on the edited part.
That list is computed by name and module, so it can contain a theorem that uses a failed one of the same module.

{
 "claims": [
  {
   "property": "C01",
   "status": "proved",
   "theorems": [
    "GoTfhe.C01_roundtrip",
    "GoTfhe.C01_range",
    "GoTfhe.C01_injective"
   ],
   "note": "Exact rational model of the float64 conversions used."
  },
  {
   "property": "C02",
   "status": "proved",
   "theorems": [
    "GoTfhe.C02_accuracy",
    "GoTfhe.C02_odd",
    "GoTfhe.C02_periodic",
    "GoTfhe.C02_crossing_zero_changes"
   ],
   "note": ""
  },
  {
   "property": "C03",
   "status": "proved",
   "theorems": [
    "GoTfhe.C03_toBits_convert",
    "GoTfhe.C03_widths",
    "GoTfhe.C03_negative_size"
   ],
   "note": ""
  },
  {
   "property": "C04",
   "status": "proved",
   "theorems": [
    "GoTfhe.C04_convert_toBits",
    "GoTfhe.C04_truncation"
   ],
   "note": ""
  },
  {
   "property": "C05",
   "status": "proved",
   "theorems": [
    "GoTfhe.C05_enc_dec_iff",
    "GoTfhe.C05_enc_dec",
    "GoTfhe.C05_boundary"
   ],
   "note": ""
  },
  {
   "property": "C06",
   "status": "proved",
   "theorems": [
    "GoTfhe.C06_enc_dec_iff",
    "GoTfhe.C06_enc_dec",
    "GoTfhe.C06_long_key_panics"
   ],
   "note": ""
  },
  {
   "property": "C07",
   "status": "proved",
   "theorems": [
    "GoTfhe.C07_linear",
    "GoTfhe.C07_addAssign",
    "GoTfhe.C07_mul",
    "GoTfhe.C07_mul_not_homomorphic",
    "GoTfhe.C07_short_operand_panics",
    "GoTfhe.C07_noise"
   ],
   "note": ""
  },
  {
   "property": "C08",
   "status": "proved",
   "theorems": [
    "GoTfhe.C08_addAssign_alias"
   ],
   "note": ""
  },
  {
   "property": "C09",
   "status": "proved",
   "theorems": [
    "GoTfhe.C09_pow2_roundtrip_iff",
    "GoTfhe.C09_pow2_roundtrip"
   ],
   "note": ""
  },
  {
   "property": "C10",
   "status": "proved",
   "theorems": [
    "GoTfhe.C10_general_roundtrip"
   ],
   "note": ""
  },
  {
   "property": "C11",
   "status": "proved",
   "theorems": [
    "GoTfhe.C11_panics_iff",
    "GoTfhe.C11_range"
   ],
   "note": ""
  },
  {
   "property": "C12",
   "status": "proved",
   "theorems": [
    "GoTfhe.C12_bits_roundtrip",
    "GoTfhe.C12_int_roundtrip"
   ],
   "note": ""
  },
  {
   "property": "C13",
   "status": "proved",
   "theorems": [
    "GoTfhe.C13_mulXk",
    "GoTfhe.C13_zero",
    "GoTfhe.C13_empty_panics",
    "GoTfhe.C13_private"
   ],
   "note": ""
  },
  {
   "property": "C14",
   "status": "proved",
   "theorems": [
    "GoTfhe.C14_compose",
    "GoTfhe.C14_period",
    "GoTfhe.C14_mod"
   ],
   "note": ""
  },
  {
   "property": "C15",
   "status": "proved",
   "theorems": [
    "GoTfhe.C15_inPlace_iff",
    "GoTfhe.C15_inPlace_wrong",
    "GoTfhe.C15_pool",
    "GoTfhe.C15_pool_reuse"
   ],
   "note": ""
  },
  {
   "property": "C16",
   "status": "proved",
   "theorems": [
    "GoTfhe.C16_decompose_all",
    "GoTfhe.C16_decompose",
    "GoTfhe.C16_error"
   ],
   "note": ""
  },
  {
   "property": "C17",
   "status": "proved",
   "theorems": [
    "GoTfhe.C17_same_digits",
    "GoTfhe.C17_buffers_suffice"
   ],
   "note": ""
  },
  {
   "property": "C18",
   "status": "proved",
   "theorems": [
    "GoTfhe.C18_bitReverse",
    "GoTfhe.C18_total"
   ],
   "note": "bitReverseInPlace modelled with its counter loop; the permutation and the involution are proved for every k and element type."
  },
  {
   "property": "C19",
   "status": "proved",
   "theorems": [
    "GoTfhe.C19_round_trip"
   ],
   "note": "The code's genTwiddleFactors, folding, in-place stages, scaling and reduction modulo 2^32, read in exact real arithmetic; all valid degrees, all polynomials, all previous buffer contents."
  },
  {
   "property": "C20",
   "status": "proved",
   "theorems": [
    "GoTfhe.C20_mul",
    "GoTfhe.C20_backend_exact"
   ],
   "note": "MulPoly, MulPolyAssign, MulAddPolyAssign, MulSubPolyAssign in exact real arithmetic; also that the exact transform is a lawful exact backend for the ciphertext theorems."
  },
  {
   "property": "C21",
   "status": "proved",
   "theorems": [
    "GoTfhe.C21_accurate",
    "GoTfhe.C21_mulAccurate",
    "GoTfhe.C21_mulPoly",
    "GoTfhe.C21_mulPoly_exact",
    "GoTfhe.C21_backend_binary",
    "GoTfhe.C21_backend_external"
   ],
   "note": "Rounding of binary64 with gradual underflow, nothing assumed beyond 2^1023; any choice of fused multiply-adds by the compiler is covered (Fusing); cmplx.Exp accuracy is a hypothesis (satisfiable, example given)."
  },
  {
   "property": "C22",
   "status": "proved",
   "theorems": [
    "GoTfhe.C22_in_bounds",
    "GoTfhe.C22_needs_blocks",
    "GoTfhe.C22_needs_length"
   ],
   "note": "Every element access of the unchecked blocks is a checked access in the model; proved for every arithmetic, so also for floating point including any rounding."
  },
  {
   "property": "C23",
   "status": "proved",
   "theorems": [
    "GoTfhe.C23_constructors"
   ],
   "note": ""
  },
  {
   "property": "C24",
   "status": "proved",
   "theorems": [
    "GoTfhe.C24_enc_dec_iff",
    "GoTfhe.C24_enc_dec",
    "GoTfhe.C24_phase"
   ],
   "note": ""
  },
  {
   "property": "C25",
   "status": "proved",
   "theorems": [
    "GoTfhe.C25_extract",
    "GoTfhe.C25_last_exact",
    "GoTfhe.C25_out_of_range"
   ],
   "note": ""
  },
  {
   "property": "C26",
   "status": "proved",
   "theorems": [
    "GoTfhe.C26_bootstrapWithoutKeySwitch",
    "GoTfhe.C26_panics",
    "GoTfhe.C26_if_equal"
   ],
   "note": ""
  },
  {
   "property": "C27",
   "status": "proved",
   "theorems": [
    "GoTfhe.C27_encryptTorus",
    "GoTfhe.C27_fft"
   ],
   "note": ""
  },
  {
   "property": "C28",
   "status": "proved",
   "theorems": [
    "GoTfhe.C28_externalProductAssign",
    "GoTfhe.C28_externalProductAssign_bound",
    "GoTfhe.C28_externalProductWithFFT"
   ],
   "note": ""
  },
  {
   "property": "C29",
   "status": "proved",
   "theorems": [
    "GoTfhe.C29_cMuxAssign",
    "GoTfhe.C29_cmux"
   ],
   "note": ""
  },
  {
   "property": "C30",
   "status": "proved",
   "theorems": [
    "GoTfhe.C30_out_is_ct0",
    "GoTfhe.C30_out_is_ct1",
    "GoTfhe.C30_out_is_ct1_wrong"
   ],
   "note": ""
  },
  {
   "property": "C31",
   "status": "proved",
   "theorems": [
    "GoTfhe.C31_modswitch_all",
    "GoTfhe.C31_modswitch"
   ],
   "note": ""
  },
  {
   "property": "C32",
   "status": "proved",
   "theorems": [
    "GoTfhe.C32_blindRotateAssign",
    "GoTfhe.C32_blindRotate"
   ],
   "note": ""
  },
  {
   "property": "C33",
   "status": "proved",
   "theorems": [
    "GoTfhe.C33_keyswitch_all",
    "GoTfhe.C33_keyswitch",
    "GoTfhe.C33_keyswitch_exact_all",
    "GoTfhe.C33_keyswitch_exact"
   ],
   "note": ""
  },
  {
   "property": "C34",
   "status": "proved",
   "theorems": [
    "GoTfhe.C34_dirty_buffer"
   ],
   "note": ""
  },
  {
   "property": "C35",
   "status": "proved",
   "theorems": [
    "GoTfhe.C35_index",
    "GoTfhe.C35_digit0_untouched_all",
    "GoTfhe.C35_digit0_untouched"
   ],
   "note": ""
  },
  {
   "property": "C36",
   "status": "proved",
   "theorems": [
    "GoTfhe.C36_keySwitchingKey",
    "GoTfhe.C36_keySwitchingKey_unique",
    "GoTfhe.C36_keySwitchingKey_progress",
    "GoTfhe.C36_bootstrappingKey",
    "GoTfhe.C36_bootstrappingKey_unique",
    "GoTfhe.C36_bootstrappingKey_progress"
   ],
   "note": ""
  },
  {
   "property": "C37",
   "status": "proved",
   "theorems": [
    "GoTfhe.C37_newCloudKey",
    "GoTfhe.C37_noKSK",
    "GoTfhe.C37_noKSK_bootstrap"
   ],
   "note": ""
  },
  {
   "property": "C38",
   "status": "proved",
   "theorems": [
    "GoTfhe.C38_history_independent"
   ],
   "note": ""
  },
  {
   "property": "C39",
   "status": "proved",
   "theorems": [
    "GoTfhe.C39_out_is_in"
   ],
   "note": ""
  },
  {
   "property": "C40",
   "status": "proved",
   "theorems": [
    "GoTfhe.C40_lifetime",
    "GoTfhe.C40_overwritten",
    "GoTfhe.C40_copies",
    "GoTfhe.C40_reset"
   ],
   "note": ""
  },
  {
   "property": "C41",
   "status": "partial",
   "theorems": [
    "GoTfhe.C41_shallowCopy_panics",
    "GoTfhe.C41_shallowCopy_partial"
   ],
   "note": "False of the code: C41_shallowCopy_panics proves that every external product, CMUX, blind rotation and bootstrap on a copy panics. The partial theorem covers the copying itself."
  },
  {
   "property": "C42",
   "status": "proved",
   "theorems": [
    "GoTfhe.C42_blindRotate_agree"
   ],
   "note": ""
  },
  {
   "property": "C43",
   "status": "proved",
   "theorems": [
    "GoTfhe.C43_gate",
    "GoTfhe.C43_gate_worst_case",
    "GoTfhe.C43_end_to_end"
   ],
   "note": ""
  },
  {
   "property": "C44",
   "status": "proved",
   "theorems": [
    "GoTfhe.C44_mux"
   ],
   "note": ""
  },
  {
   "property": "C45",
   "status": "proved",
   "theorems": [
    "GoTfhe.C45_not",
    "GoTfhe.C45_not_boundary",
    "GoTfhe.C45_copy",
    "GoTfhe.C45_constant"
   ],
   "note": ""
  },
  {
   "property": "C46",
   "status": "proved",
   "theorems": [
    "GoTfhe.C46_circuit",
    "GoTfhe.C46_circuit_worst_case"
   ],
   "note": ""
  },
  {
   "property": "C47",
   "status": "proved",
   "theorems": [
    "GoTfhe.C47_loop",
    "GoTfhe.C47_adder"
   ],
   "note": ""
  },
  {
   "property": "C48",
   "status": "partial",
   "theorems": [
    "GoTfhe.C48_batch_partial",
    "GoTfhe.C48_batchXNOR_is_xor",
    "GoTfhe.C48_reuse_false",
    "GoTfhe.C48_batchXNOR_false"
   ],
   "note": "False of the code in two ways: BatchXNOR computes XOR (C48_batchXNOR_is_xor, C48_batchXNOR_false), and results of rotations that were given the same pooled evaluator overwrite each other (C48_reuse_false). The partial theorem covers the other five gates for all inputs and all schedules in which no two rotations get the same evaluator."
  },
  {
   "property": "C49",
   "status": "partial",
   "theorems": [
    "GoTfhe.C49_batchBlindRotate_partial",
    "GoTfhe.C49_reuse",
    "GoTfhe.C49_false"
   ],
   "note": "False of the code (C49_false, with C49_reuse saying what is returned instead). The partial theorem covers all schedules in which no two results lie in the same evaluator; absence of panics and exclusive possession of evaluators are proved for all schedules."
  },
  {
   "property": "C50",
   "status": "partial",
   "theorems": [
    "GoTfhe.C50_gates_partial",
    "GoTfhe.C50_example",
    "GoTfhe.C50_panics_4_to_8",
    "GoTfhe.C50_panics_3",
    "GoTfhe.C50_panics_80_110",
    "GoTfhe.C50_false",
    "GoTfhe.C50_panics_2"
   ],
   "note": "False as stated. C50_gates_partial: correct at 128-bit, Uint1 and unknown levels. C50_false, C50_panics_2, C50_panics_3, C50_panics_4_to_8: every gate panics at Uint2..Uint8 (Uint2 for the library's transform in any arithmetic). C50_panics_80_110: exact condition for the panic at 80/110-bit. Together they decide every level."
  },
  {
   "property": "C51",
   "status": "proved",
   "theorems": [
    "GoTfhe.C51_roundtrip",
    "GoTfhe.C51_decodeBool",
    "GoTfhe.C51_mod",
    "GoTfhe.C51_custom"
   ],
   "note": "Moduli 1 to 2^29, all ints, every rounding function satisfying IsRound (binary64 round to nearest is one)."
  },
  {
   "property": "C52",
   "status": "proved",
   "theorems": [
    "GoTfhe.C52_table",
    "GoTfhe.C52_slot_exact",
    "GoTfhe.C52_slot_general",
    "GoTfhe.C52_tiles",
    "GoTfhe.C52_disjoint"
   ],
   "note": "All functions and moduli; slots exact when 2m divides N, otherwise guaranteed up to one position from their ends; slots tile and are disjoint."
  },
  {
   "property": "C53",
   "status": "proved",
   "theorems": [
    "GoTfhe.C53_agree",
    "GoTfhe.C53_overwrite",
    "GoTfhe.C53_allocating"
   ],
   "note": "Also shows that no call panics."
  },
  {
   "property": "C54",
   "status": "proved",
   "theorems": [
    "GoTfhe.C54_restored",
    "GoTfhe.C54_panics_iff",
    "GoTfhe.C54_table",
    "GoTfhe.C54_scaled",
    "GoTfhe.C54_panic_witness"
   ],
   "note": "If the function panics and the caller recovers, the generator keeps the custom encoder; proved with a witness and an exact condition for panicking."
  },
  {
   "property": "C55",
   "status": "proved",
   "theorems": [
    "GoTfhe.C55_nearest"
   ],
   "note": "All table sizes from 1 to 2^21, powers of two or not."
  },
  {
   "property": "C56",
   "status": "proved",
   "theorems": [
    "GoTfhe.C56_bootstrapFunc",
    "GoTfhe.C56_bootstrapLUT",
    "GoTfhe.C56_end_to_end_realised",
    "GoTfhe.C56_end_to_end"
   ],
   "note": "Stated with the realised noise of the bootstrapping, and end to end with the worst-case noise bound."
  },
  {
   "property": "C57",
   "status": "proved",
   "theorems": [
    "GoTfhe.C57_adds",
    "GoTfhe.C57_adds_worst_case"
   ],
   "note": "Stated with the realised noises of the run, and with the worst-case bound."
  },
  {
   "property": "C58",
   "status": "proved",
   "theorems": [
    "GoTfhe.C58_copy",
    "GoTfhe.C58_independent",
    "GoTfhe.C58_writes_disjoint",
    "GoTfhe.C58_copyFrom",
    "GoTfhe.C58_clear",
    "GoTfhe.C58_new"
   ],
   "note": "For all programs of table operations."
  },
  {
   "property": "C59",
   "status": "proved",
   "theorems": [
    "GoTfhe.C59_phase",
    "GoTfhe.C59_newPublicKey",
    "GoTfhe.C59_bool_iff",
    "GoTfhe.C59_bool"
   ],
   "note": "Any public key and coin sequence; the phase identity is exact, Boolean decryption is an iff on the total noise."
  },
  {
   "property": "C60",
   "status": "proved",
   "theorems": [
    "GoTfhe.C60_symmetric",
    "GoTfhe.C60_asymmetric",
    "GoTfhe.C60_reencrypt",
    "GoTfhe.C60_decryptBool",
    "GoTfhe.C60_decryptMessage",
    "GoTfhe.C60_symmetric_bool"
   ],
   "note": "Both constructors and every basebit, t with 1 <= basebit*t <= 31; the doubles in the constructors are exact for binary keys."
  },
  {
   "property": "C61",
   "status": "proved",
   "theorems": [
    "GoTfhe.C61_chain",
    "GoTfhe.C61_chain_bool"
   ],
   "note": "Induction over chains; decomposition parameters may differ per hop."
  },
  {
   "property": "C62",
   "status": "proved",
   "theorems": [
    "GoTfhe.C62_panics",
    "GoTfhe.C62_constructed_panics",
    "GoTfhe.C62_panics_iff",
    "GoTfhe.C62_inputs_unchanged",
    "GoTfhe.C62_no_writes"
   ],
   "note": "Panic characterised exactly for matching sizes; input preservation proved on a heap model with arbitrary aliasing of the inputs."
  },
  {
   "property": "C63",
   "status": "proved",
   "theorems": [
    "GoTfhe.C63_wellFormed",
    "GoTfhe.C63_alphas",
    "GoTfhe.C63_default"
   ],
   "note": ""
  },
  {
   "property": "C64",
   "status": "proved",
   "theorems": [
    "GoTfhe.C64_blockCount",
    "GoTfhe.C64_levels"
   ],
   "note": ""
  },
  {
   "property": "C65",
   "status": "proved",
   "theorems": [
    "GoTfhe.C65_secretKey"
   ],
   "note": ""
  },
  {
   "property": "C66",
   "status": "partial",
   "theorems": [
    "GoTfhe.C66_hiding_partial",
    "GoTfhe.C66_levels_partial",
    "GoTfhe.C66_runs"
   ],
   "note": "Computational claims are not expressible in this model. Proved instead, for readers without any bound on their work: k level-0 ciphertexts under a fresh key (plaintexts chosen adaptively) are told apart from any others with advantage at most sqrt(2^(32k)/2^n); 2^-131 for nine ciphertexts at every level. Missing: more ciphertexts than the key has entropy for, public, cloud and re-encryption keys, and the advertised bit security."
  },
  {
   "property": "C67",
   "status": "proved",
   "theorems": [
    "GoTfhe.C67_errors",
    "GoTfhe.C67_gate",
    "GoTfhe.C67_circuit_worst_case",
    "GoTfhe.C67_circuit"
   ],
   "note": ""
  },
  {
   "property": "C68",
   "status": "proved",
   "theorems": [
    "GoTfhe.C68_pbs",
    "GoTfhe.C68_pbs_worst_case"
   ],
   "note": ""
  },
  {
   "property": "C69",
   "status": "proved",
   "theorems": [
    "GoTfhe.C69_fourier_program"
   ],
   "note": ""
  },
  {
   "property": "C70",
   "status": "proved",
   "theorems": [
    "GoTfhe.C70_separate",
    "GoTfhe.C70_gates",
    "GoTfhe.C70_shared",
    "GoTfhe.C70_shared_wrong"
   ],
   "note": ""
  },
  {
   "property": "C71",
   "status": "partial",
   "theorems": [
    "GoTfhe.C71_noise_zero",
    "GoTfhe.C71_noise_partial",
    "GoTfhe.C71_false",
    "GoTfhe.C71_keys_recovered",
    "GoTfhe.C71_level",
    "GoTfhe.C71_float",
    "GoTfhe.C71_probability",
    "GoTfhe.C71_noise_random",
    "GoTfhe.C71_random"
   ],
   "note": "False of the code at Uint2-Uint8: every draw within 100 standard deviations is truncated to zero (C71_noise_zero, C71_false), and then the adversary program of Spec/KeyRecovery recovers both secret keys from the cloud key (C71_keys_recovered, C71_level; C71_float for the library's own transform; C71_probability: all but a fraction 2^-n of the masks). C71_noise_partial is the positive part: the other parameter sets keep the noise."
  },
  {
   "property": "C72",
   "status": "proved",
   "theorems": [
    "GoTfhe.C72_rounding",
    "GoTfhe.C72_pbs",
    "GoTfhe.C72_gate",
    "GoTfhe.C72_pbs_levels",
    "GoTfhe.C72_gate_levels"
   ],
   "note": "Probability over uniform masks only, by counting; the noise sample and the noise of the bootstrapping are hypotheses on realised values. Bounds at the level moduli in C72_pbs_levels and C72_gate_levels."
  },
  {
   "property": "C73",
   "status": "partial",
   "theorems": [
    "GoTfhe.C73_far",
    "GoTfhe.C73_wrong",
    "GoTfhe.C73_levels",
    "GoTfhe.C73_uint6",
    "GoTfhe.C73_partial",
    "GoTfhe.C73_false",
    "GoTfhe.C73_false6"
   ],
   "note": "False at Uint6, Uint7 and Uint8 (C73_uint6, C73_false6, C73_levels, C73_false): too coarse rounding. C73_partial covers Uint1-Uint5. At Uint6 the bound 1/100 is refuted for keys of weight at least 892; for ordinary keys the proved fraction is 1/1000."
  },
  {
   "property": "C74",
   "status": "proved",
   "theorems": [
    "GoTfhe.C74_delegatee",
    "GoTfhe.C74_symmetric",
    "GoTfhe.C74_asymmetric",
    "GoTfhe.C74_noise_default"
   ],
   "note": "delegatorKey is an adversary's program, not code of /repo. Noise enters as a hypothesis on the realised draws; C74_noise_default shows 8 standard deviations suffice at the default level."
  },
  {
   "property": "C75",
   "status": "partial",
   "theorems": [
    "GoTfhe.C75_phase",
    "GoTfhe.C75_bool",
    "GoTfhe.C75_message",
    "GoTfhe.C75_publicKey",
    "GoTfhe.C75_publicKey_levels",
    "GoTfhe.C75_wrong",
    "GoTfhe.C75_partial",
    "GoTfhe.C75_energy",
    "GoTfhe.C75_message_levels",
    "GoTfhe.C75_level80",
    "GoTfhe.C75_false"
   ],
   "note": "False at 80 bits (C75_level80, C75_false: at least 1/299). C75_partial: at most 1/300 at Uint1-Uint8 (2^-200 from Uint3 on), 1/140 at 128 bits and 1/20 at 110 bits, where 1/300 is not decided. C75_publicKey_levels: public-key encryption alone fails with probability at most 2^-200. Gaussian draws enter through hypotheses on realised values; coins are uniform."
  },
  {
   "property": "C76",
   "status": "proved",
   "theorems": [
    "GoTfhe.C76_program",
    "GoTfhe.C76_end_to_end",
    "GoTfhe.C76_worst_case"
   ],
   "note": "C76_program: induction over the program; C76_end_to_end (realised noise) and C76_worst_case from key generation to decryption with the float64 transform"
  },
  {
   "property": "C77",
   "status": "proved",
   "theorems": [
    "GoTfhe.C77_demoFunction",
    "GoTfhe.C77_demoLUTReuse",
    "GoTfhe.C77_pbsDemo",
    "GoTfhe.C77_simpleGates",
    "GoTfhe.C77_simpleNot",
    "GoTfhe.C77_worst_case"
   ],
   "note": "loops of the examples for all inputs (C77_demoFunction, C77_demoLUTReuse, C77_simpleGates, C77_simpleNot), the fixed mains (C77_pbsDemo), and both with the float64 transform (C77_worst_case)"
  },
  {
   "property": "C78",
   "status": "proved",
   "theorems": [
    "GoTfhe.C78_keyNoise",
    "GoTfhe.C78_tail",
    "GoTfhe.C78_keySwitching",
    "GoTfhe.C78_levels",
    "GoTfhe.C78_levels_keySwitching",
    "GoTfhe.C78_gate",
    "GoTfhe.C78_gate_levels",
    "GoTfhe.C78_pbs",
    "GoTfhe.C78_pbs_levels",
    "GoTfhe.C78_gate_light"
   ],
   "note": "the draws' part is exact and its tail is proved for every level; gate and table failure bounds hold on the event that the rounding errors stay within half the margin, without that condition when the worst case fits (C78_gate_light); input fixed before the key noise"
  },
  {
   "property": "C79",
   "status": "proved",
   "theorems": [
    "GoTfhe.C79_draw",
    "GoTfhe.C79_noise",
    "GoTfhe.C79_bool",
    "GoTfhe.C79_bool1",
    "GoTfhe.C79_message"
   ],
   "note": "probability over the noise only, under the assumption NoiseDraws (satisfied by truncated normal variables, noiseDraws_normal)"
  },
  {
   "property": "C80",
   "status": "proved",
   "theorems": [
    "GoTfhe.C80_tables",
    "GoTfhe.C80_overcount",
    "GoTfhe.C80_newEvaluator",
    "GoTfhe.C80_separate",
    "GoTfhe.C80_step",
    "GoTfhe.C80_names",
    "GoTfhe.C80_pools",
    "GoTfhe.C80_memoryUsage",
    "GoTfhe.C80_documented_size",
    "GoTfhe.C80_dummy"
   ],
   "note": "All statements are proved on a memory model that numbers the slices; a copy's decomposer has one level only (C41)."
  },
  {
   "property": "C81",
   "status": "proved",
   "theorems": [
    "GoTfhe.C81_securityInfo",
    "GoTfhe.C81_log2",
    "GoTfhe.C81_copy_clear",
    "GoTfhe.C81_clearTRLWE",
    "GoTfhe.C81_copyToDecompBuffer"
   ],
   "note": "Proved for all ints and all lists."
  },
  {
   "property": "C82",
   "status": "proved",
   "theorems": [
    "GoTfhe.C82_bool",
    "GoTfhe.C82_bool_num",
    "GoTfhe.C82_message_num",
    "GoTfhe.C82_levels",
    "GoTfhe.C82_messages",
    "GoTfhe.C82_random",
    "GoTfhe.C82_msg",
    "GoTfhe.C82_random_message"
   ],
   "note": "Upper bounds (C82_levels, C82_messages) from C82_random and C82_random_message, which hold for all well-formed parameters. NoiseDraws is assumed of the Gaussian draws, as in C78 and C79. The masks of the public key are arbitrary. C75 has the bounds for a fixed public key, and the lower bound that shows how weak the 80-bit level is."
  },
  {
   "property": "C83",
   "status": "proved",
   "theorems": [
    "GoTfhe.C83_bool",
    "GoTfhe.C83_msg",
    "GoTfhe.C83_levels",
    "GoTfhe.C83_messages",
    "GoTfhe.C83_example",
    "GoTfhe.C83_example_128"
   ],
   "note": "C83_bool and C83_msg hold for all well-formed parameters, all h and all mixes of modes; C83_levels and C83_messages are the rows of chainTable and chainMsgTable (Uint2 and Uint3 have no message rows: the worst rounding of one hop exceeds the margin there). C83_example is the example program for any number of messages, C83_example_128 the program as it stands. The worst rounding of every hop is charged, so C82, which averages over the mask, is sharper for one hop. NoiseDraws is assumed of the draws."
  },
  {
   "property": "C84",
   "status": "proved",
   "theorems": [
    "GoTfhe.C84_direction",
    "GoTfhe.C84_symmetric_levels",
    "GoTfhe.C84_asymmetric_levels",
    "GoTfhe.C84_uniform",
    "GoTfhe.C84_bool",
    "GoTfhe.C84_message",
    "GoTfhe.C84_message_pow2",
    "GoTfhe.C84_bool_lv1",
    "GoTfhe.C84_trlwe_joint",
    "GoTfhe.C84_trlwe_joint_float",
    "GoTfhe.C84_trlwe",
    "GoTfhe.C84_trlwe_float"
   ],
   "note": "Exact counts over masks: C84_uniform, C84_bool, C84_bool_lv1, C84_message, C84_message_pow2; TRLWE bit by bit: C84_trlwe, C84_trlwe_float; TRLWE all bits together: C84_trlwe_joint, C84_trlwe_joint_float; direction of re-encryption keys: C84_direction, C84_symmetric_levels, C84_asymmetric_levels."
  },
  {
   "property": "C85",
   "status": "proved",
   "theorems": [
    "GoTfhe.C85_rounding"
   ],
   "note": "Uniform masks of the bootstrapping key, everything else fixed. Statement uses the mean lostBias of the lost bits, a function of the keys and the mask of the input."
  },
  {
   "property": "C86",
   "status": "proved",
   "theorems": [
    "GoTfhe.C86_rounding_levels",
    "GoTfhe.C86_rounding"
   ],
   "note": "General bound with free constants (C86_rounding) and numbers for the gate levels (C86_rounding_levels). The noise is fixed, coins and masks are uniform."
  },
  {
   "property": "C87",
   "status": "proved",
   "theorems": [
    "GoTfhe.C87_gate",
    "GoTfhe.C87_gate_levels"
   ],
   "note": "One gate on two different fresh encryptions. Chains of gates are not covered: the output of a gate is not independent of the keys."
  },
  {
   "property": "C88",
   "status": "proved",
   "theorems": [
    "GoTfhe.C88_session",
    "GoTfhe.C88_simpleGates"
   ],
   "note": "gates on outputs of earlier gates are not covered; see C43-C47 for circuits with realised noise"
  },
  {
   "property": "C89",
   "status": "proved",
   "theorems": [
    "GoTfhe.C89_lookups",
    "GoTfhe.C89_pbsMain"
   ],
   "note": "BootstrapFunc and BootstrapLUT with messages modulo 2; larger moduli (the sixth demo) have half the margin and are covered by C52, C55 and C77 with realised noise only"
  },
  {
   "property": "C90",
   "status": "proved",
   "theorems": [
    "GoTfhe.C90_program",
    "GoTfhe.C90_fold"
   ],
   "note": "the second argument of every gate is an encryption that the first does not depend on; circuits that join two results are covered by C46 with the worst-case bound, or with realised noise, only"
  },
  {
   "property": "C91",
   "status": "proved",
   "theorems": [
    "GoTfhe.C91_values",
    "GoTfhe.C91_roots",
    "GoTfhe.C91_monomial"
   ],
   "note": "Exact arithmetic; C91_values for all polynomials, C91_roots for the roots of unity, C91_monomial for the tables."
  },
  {
   "property": "C92",
   "status": "partial",
   "theorems": [
    "GoTfhe.C92_false_keys",
    "GoTfhe.C92_false_keys_missing",
    "GoTfhe.C92_false_reader",
    "GoTfhe.C92_false_reader_noise",
    "GoTfhe.C92_false_delegation",
    "GoTfhe.C92_false_delegation_noise",
    "GoTfhe.C92_false_repeat_lv0",
    "GoTfhe.C92_false_repeat_lv1",
    "GoTfhe.C92_false_repeat_trlwe",
    "GoTfhe.C92_false_repeat",
    "GoTfhe.C92_birthday",
    "GoTfhe.C92_false_ksk",
    "GoTfhe.C92_false_ksk_levels",
    "GoTfhe.C92_false_ksk_128",
    "GoTfhe.C92_guess_partial",
    "GoTfhe.C92_tape_key",
    "GoTfhe.C92_tape_lv0",
    "GoTfhe.C92_tape_lv1",
    "GoTfhe.C92_tape_trlwe",
    "GoTfhe.C92_tape_pk",
    "GoTfhe.C92_tape_pkBool",
    "GoTfhe.C92_tape_cloudKey",
    "GoTfhe.C92_tape_reenc"
   ],
   "note": "The claim is false of the code: C92_false_keys, C92_false_keys_missing, C92_false_reader(_noise), C92_false_delegation(_noise), C92_false_repeat(_lv0, _lv1, _trlwe), C92_birthday and C92_false_ksk(_levels, _128) prove the negations. C92_guess_partial is what remains: k guesses of the secret key succeed with probability at most k(2^32+3)/2^63 if the generator gives different keys for different remainders. C92_tape_*: inside one call successive values of the generator are used, each once. The law of math/rand seeds (same remainder modulo 2^31-1, same sequence) is a hypothesis, quoted from the documentation of the Go standard library."
  },
  {
   "property": "C93",
   "status": "proved",
   "theorems": [
    "GoTfhe.C93_tables",
    "GoTfhe.C93_mulPoly",
    "GoTfhe.C93_accum",
    "GoTfhe.C93_int64_mulPoly",
    "GoTfhe.C93_int64_accum"
   ],
   "note": "An arithmetic that returns anything beyond 2^700 gives the same tables, products and sums of products; degrees up to 2^31, at most 2^20 products. The result does not depend on the conversion to int64 beyond 2^63 (at most 2^18 products)."
  },
  {
   "property": "C94",
   "status": "partial",
   "theorems": [
    "GoTfhe.C94_offset_partial",
    "GoTfhe.C94_false_aligned",
    "GoTfhe.C94_room"
   ],
   "note": "The claim is false of the code: C94_false_aligned gives allocations for which the result is not aligned, for every degree. C94_offset_partial: the result always begins where the allocation begins. C94_room: the allocation has room for an aligned slice."
  },
  {
   "property": "C95",
   "status": "proved",
   "theorems": [
    "GoTfhe.C95_bootstrapFunc",
    "GoTfhe.C95_sum",
    "GoTfhe.C95_float",
    "GoTfhe.C95_identity"
   ],
   "note": "C95_bootstrapFunc: any integer number of steps z, realised noise; C95_sum: encrypt, encrypt, Add, BootstrapFunc, DecryptLWEMessage with the worst-case noise bound; C95_float: the same from key generation on in float64 arithmetic; C95_identity: the extension of the identity differs from reduction modulo m."
  },
  {
   "property": "C96",
   "status": "proved",
   "theorems": [
    "GoTfhe.C96_program",
    "GoTfhe.C96_end_to_end",
    "GoTfhe.C96_pow2"
   ],
   "note": "C96_program: ciphertexts holding integers up to known offsets; C96_end_to_end: from encryption for every modulus; C96_pow2: powers of two, with the noise alone. Bounds are computed by LinInstr.bound (Spec/Linear.lean)."
  },
  {
   "property": "C97",
   "status": "proved",
   "theorems": [
    "GoTfhe.C97_gate",
    "GoTfhe.C97_swap",
    "GoTfhe.C97_xor_order",
    "GoTfhe.C97_not_not",
    "GoTfhe.C97_circuit",
    "GoTfhe.C97_basic",
    "GoTfhe.C97_float"
   ],
   "note": "C97_gate and C97_swap for single gates (all ciphertexts, all evaluator states), C97_circuit for circuits with any lawful transform, C97_float from key generation in float64 arithmetic, C97_basic for the shape of the rewritten circuit, C97_xor_order for the exception."
  },
  {
   "property": "C98",
   "status": "proved",
   "theorems": [
    "GoTfhe.C98_constant",
    "GoTfhe.C98_xor",
    "GoTfhe.C98_float"
   ],
   "note": "C98_constant with any lawful transform, C98_float from key generation in float64 arithmetic, C98_xor for the exception. The noise of the one bootstrapping is a hypothesis on the realised value, bounded by bootBound."
  },
  {
   "property": "C99",
   "status": "proved",
   "theorems": [
    "GoTfhe.C99_server",
    "GoTfhe.C99_runs",
    "GoTfhe.C99_float"
   ],
   "note": "C99_server and C99_runs with any lawful transform, C99_float from key generation in float64 arithmetic. Calls do not overlap in time; overlapping calls on one evaluator are the subject of C70."
  }
 ]
}
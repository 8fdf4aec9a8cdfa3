{
 "claims": [
  {
   "property": "C01",
   "status": "proved",
   "theorems": [
    "DSP.C01_stack"
   ],
   "note": ""
  },
  {
   "property": "C02",
   "status": "proved",
   "theorems": [
    "DSP.C02_deque"
   ],
   "note": ""
  },
  {
   "property": "C03",
   "status": "proved",
   "theorems": [
    "DSP.C03_delay",
    "DSP.C03_delay_sample"
   ],
   "note": ""
  },
  {
   "property": "C04",
   "status": "proved",
   "theorems": [
    "DSP.C04_bip_buffer",
    "DSP.C04_newest_last"
   ],
   "note": ""
  },
  {
   "property": "C05",
   "status": "proved",
   "theorems": [
    "DSP.C05_movext",
    "DSP.C05_movmin",
    "DSP.C05_movmax",
    "DSP.C05_init_collision",
    "DSP.C05_movmax_float_wrong"
   ],
   "note": "The restriction to integers for MovMax is necessary, see the finding on numeric_limits::min()."
  },
  {
   "property": "C06",
   "status": "proved",
   "theorems": [
    "DSP.C06_movext_safe",
    "DSP.C06_nan_asserts"
   ],
   "note": "Needs a reflexive ==; with NaN an assertion does fail (C06_nan_asserts)."
  },
  {
   "property": "C07",
   "status": "proved",
   "theorems": [
    "DSP.C07_swa"
   ],
   "note": ""
  },
  {
   "property": "C08",
   "status": "proved",
   "theorems": [
    "DSP.C08_swa_no_drift"
   ],
   "note": ""
  },
  {
   "property": "C09",
   "status": "proved",
   "theorems": [
    "DSP.C09_sma1",
    "DSP.C09_sma2",
    "DSP.C09_sma3",
    "DSP.C09_sma4",
    "DSP.C09_abs_dev"
   ],
   "note": ""
  },
  {
   "property": "C10",
   "status": "proved",
   "theorems": [
    "DSP.C10_sma2_int"
   ],
   "note": ""
  },
  {
   "property": "C11",
   "status": "proved",
   "theorems": [
    "DSP.C11_sort",
    "DSP.C11_sort_unique"
   ],
   "note": ""
  },
  {
   "property": "C12",
   "status": "proved",
   "theorems": [
    "DSP.C12_select",
    "DSP.C12_select_unique",
    "DSP.C12_select_assert",
    "DSP.C12_negative_k"
   ],
   "note": ""
  },
  {
   "property": "C13",
   "status": "proved",
   "theorems": [
    "DSP.C13_sort_safe",
    "DSP.C13_select_safe"
   ],
   "note": ""
  },
  {
   "property": "C14",
   "status": "proved",
   "theorems": [
    "DSP.C14_kahan_outputs",
    "DSP.C14_kahan_sum",
    "DSP.C14_kahan_same",
    "DSP.C14_kahan_same_any"
   ],
   "note": ""
  },
  {
   "property": "C15",
   "status": "proved",
   "theorems": [
    "DSP.Kahan.C15_standard_model",
    "DSP.Kahan.C15_binary",
    "DSP.Kahan.C15_error_free",
    "DSP.Kahan.C15_dominant"
   ],
   "note": ""
  },
  {
   "property": "C16",
   "status": "proved",
   "theorems": [
    "DSP.C16_schmitt",
    "DSP.C16_schmitt_hold",
    "DSP.C16_schmitt_needs_order"
   ],
   "note": ""
  },
  {
   "property": "C17",
   "status": "proved",
   "theorems": [
    "DSP.C17_rising",
    "DSP.C17_falling",
    "DSP.C17_balance"
   ],
   "note": ""
  },
  {
   "property": "C18",
   "status": "proved",
   "theorems": [
    "DSP.C18_integrator",
    "DSP.C18_differentiator",
    "DSP.C18_int_diff",
    "DSP.C18_diff_int"
   ],
   "note": ""
  },
  {
   "property": "C19",
   "status": "proved",
   "theorems": [
    "DSP.C19_header",
    "DSP.C19_opens"
   ],
   "note": ""
  },
  {
   "property": "C20",
   "status": "proved",
   "theorems": [
    "DSP.C20_within",
    "DSP.C20_saturates",
    "DSP.C20_reencode",
    "DSP.C20_file"
   ],
   "note": ""
  },
  {
   "property": "C21",
   "status": "proved",
   "theorems": [
    "DSP.C21_float",
    "DSP.C21_bits"
   ],
   "note": ""
  },
  {
   "property": "C22",
   "status": "proved",
   "theorems": [
    "DSP.C22_crash"
   ],
   "note": ""
  },
  {
   "property": "C23",
   "status": "proved",
   "theorems": [
    "DSP.C23_write",
    "DSP.C23_layout",
    "DSP.C23_silence",
    "DSP.C23_skip"
   ],
   "note": ""
  },
  {
   "property": "C24",
   "status": "proved",
   "theorems": [
    "DSP.C24_accepts",
    "DSP.C24_rejects",
    "DSP.C24_rejection_invisible",
    "DSP.C24_truncated_uninit",
    "DSP.C24_zero_channels",
    "DSP.C24_overflow",
    "DSP.C24_signed_fields"
   ],
   "note": "The constructor faults on some byte strings (see findings); the theorems speak about those where it returns."
  },
  {
   "property": "C25",
   "status": "proved",
   "theorems": [
    "DSP.C25_parse",
    "DSP.C25_roundtrip",
    "DSP.C25_comment_position",
    "DSP.C25_rejection_invisible",
    "DSP.C25_overflow"
   ],
   "note": ""
  },
  {
   "property": "C26",
   "status": "proved",
   "theorems": [
    "DSP.C26_codes",
    "DSP.C26_range",
    "DSP.C26_monotone",
    "DSP.C26_read",
    "DSP.C26_write",
    "DSP.C26_copy",
    "DSP.C26_wide_truncated"
   ],
   "note": ""
  },
  {
   "property": "C27",
   "status": "proved",
   "theorems": [
    "DSP.C27_theil_sen",
    "DSP.C27_majority",
    "DSP.C27_line",
    "DSP.C27_safe"
   ],
   "note": ""
  },
  {
   "property": "C28",
   "status": "proved",
   "theorems": [
    "DSP.C28_nested",
    "DSP.C28_nested2",
    "DSP.C28_robust",
    "DSP.C28_robust2",
    "DSP.C28_sharp",
    "DSP.C28_nan_bounds"
   ],
   "note": ""
  },
  {
   "property": "C29",
   "status": "proved",
   "theorems": [
    "DSP.C29_least_squares",
    "DSP.C29_line",
    "DSP.C29_uniform"
   ],
   "note": ""
  },
  {
   "property": "C30",
   "status": "proved",
   "theorems": [
    "DSP.C30_ring",
    "DSP.C30_div",
    "DSP.C30_assign",
    "DSP.C30_compare",
    "DSP.C30_functions"
   ],
   "note": ""
  },
  {
   "property": "C31",
   "status": "proved",
   "theorems": [
    "DSP.C31_dft"
   ],
   "note": ""
  },
  {
   "property": "C32",
   "status": "proved",
   "theorems": [
    "DSP.C32_inverse",
    "DSP.C32_parseval",
    "DSP.C32_linear"
   ],
   "note": ""
  },
  {
   "property": "C33",
   "status": "proved",
   "theorems": [
    "DSP.C33_radix",
    "DSP.C33_exists",
    "DSP.C33_powers"
   ],
   "note": ""
  },
  {
   "property": "C34",
   "status": "proved",
   "theorems": [
    "DSP.C34_halfComplex"
   ],
   "note": ""
  },
  {
   "property": "C35",
   "status": "partial",
   "theorems": [
    "DSP.C35_interpolates_partial",
    "DSP.C35_reproduces_partial",
    "DSP.C35_odd_input",
    "DSP.C35_overlap",
    "DSP.C35_violated"
   ],
   "note": "Holds for even INPUT with 2*OUTPUT >= 3*INPUT; the code violates it for all other sizes but INPUT = 1 (C35_violated, C73)."
  },
  {
   "property": "C36",
   "status": "proved",
   "theorems": [
    "DSP.UnitCircle.C36_accuracy",
    "DSP.UnitCircle.C36_reduction",
    "DSP.UnitCircle.C36_overflow",
    "DSP.UnitCircle.C36_no_steps"
   ],
   "note": ""
  },
  {
   "property": "C37",
   "status": "proved",
   "theorems": [
    "DSP.Atan.C37_atan",
    "DSP.Atan.C37_atan2",
    "DSP.Atan.C37_negative_zero"
   ],
   "note": ""
  },
  {
   "property": "C38",
   "status": "proved",
   "theorems": [
    "DSP.Exp.C38_ldexp",
    "DSP.Exp.C38_ldexp_shift",
    "DSP.Exp.C38_exp10",
    "DSP.Exp.C38_exp10_shift"
   ],
   "note": ""
  },
  {
   "property": "C39",
   "status": "proved",
   "theorems": [
    "DSP.Decibel.C39_order",
    "DSP.Decibel.C39_finite",
    "DSP.Decibel.C39_accuracy",
    "DSP.Decibel.C39_inverse",
    "DSP.Decibel.C39_round_trip"
   ],
   "note": ""
  },
  {
   "property": "C40",
   "status": "proved",
   "theorems": [
    "DSP.Const.C40_const",
    "DSP.Const.C40_cascade",
    "DSP.Const.C40_cascade_limit"
   ],
   "note": ""
  },
  {
   "property": "C41",
   "status": "proved",
   "theorems": [
    "DSP.Cordic.C41_constants",
    "DSP.Cordic.C41_defined",
    "DSP.Cordic.C41_short",
    "DSP.Cordic.C41_char",
    "DSP.Cordic.C41_short_vectors"
   ],
   "note": ""
  },
  {
   "property": "C42",
   "status": "proved",
   "theorems": [
    "DSP.EMA.C42_hull",
    "DSP.EMA.C42_between",
    "DSP.EMA.C42_monotone",
    "DSP.EMA.C42_weighted_sum",
    "DSP.EMA.C42_weights",
    "DSP.EMA.C42_constant",
    "DSP.EMA.C42_dc",
    "DSP.EMA.C42_samples"
   ],
   "note": ""
  },
  {
   "property": "C43",
   "status": "proved",
   "theorems": [
    "DSP.EMA.C43_alpha",
    "DSP.EMA.C43_half_power",
    "DSP.EMA.C43_response"
   ],
   "note": ""
  },
  {
   "property": "C44",
   "status": "proved",
   "theorems": [
    "DSP.EMACascade.C44_hull",
    "DSP.EMACascade.C44_transfer",
    "DSP.EMACascade.C44_dc",
    "DSP.EMACascade.C44_cutoff"
   ],
   "note": ""
  },
  {
   "property": "C45",
   "status": "proved",
   "theorems": [
    "DSP.BlockDC.C45_constant",
    "DSP.BlockDC.C45_nyquist",
    "DSP.BlockDC.C45_dc",
    "DSP.BlockDC.C45_nyquist_limit",
    "DSP.BlockDC.C45_bounded"
   ],
   "note": ""
  },
  {
   "property": "C46",
   "status": "proved",
   "theorems": [
    "DSP.Biquad.C46_transfer",
    "DSP.Biquad.C46_linear",
    "DSP.Biquad.C46_delay",
    "DSP.Biquad.C46_cascade"
   ],
   "note": ""
  },
  {
   "property": "C47",
   "status": "proved",
   "theorems": [
    "DSP.Biquad.C47_poles",
    "DSP.Biquad.C47_free",
    "DSP.Biquad.C47_bounded",
    "DSP.Biquad.C47_free_real",
    "DSP.Biquad.C47_bounded_real"
   ],
   "note": ""
  },
  {
   "property": "C48",
   "status": "proved",
   "theorems": [
    "DSP.Biquad.C48_settles",
    "DSP.Biquad.C48_lowpass",
    "DSP.Biquad.C48_highpass",
    "DSP.Biquad.C48_notch",
    "DSP.Biquad.C48_bandpass",
    "DSP.Biquad.C48_allpass"
   ],
   "note": ""
  },
  {
   "property": "C49",
   "status": "proved",
   "theorems": [
    "DSP.BiquadCascade.C49_lowpass",
    "DSP.BiquadCascade.C49_highpass",
    "DSP.BiquadCascade.C49_settles",
    "DSP.BiquadCascade.C49_corner"
   ],
   "note": ""
  },
  {
   "property": "C50",
   "status": "proved",
   "theorems": [
    "DSP.Phasor.C50_oscillator",
    "DSP.Phasor.C50_norm"
   ],
   "note": ""
  },
  {
   "property": "C51",
   "status": "proved",
   "theorems": [
    "DSP.FM.C51_fmd1",
    "DSP.FM.C51_fmd2",
    "DSP.FM.C51_fmd3",
    "DSP.FM.C51_fmd4",
    "DSP.FM.C51_fmd5",
    "DSP.FM.C51_tie",
    "DSP.FM.C51_constant",
    "DSP.FM.C51_constant5"
   ],
   "note": ""
  },
  {
   "property": "C52",
   "status": "proved",
   "theorems": [
    "DSP.AMD.C52_bounded",
    "DSP.AMD.C52_settled",
    "DSP.AMD.C52_peak_hold"
   ],
   "note": ""
  },
  {
   "property": "C53",
   "status": "proved",
   "theorems": [
    "DSP.NormalizeSine.C53_bounded",
    "DSP.NormalizeIQ.C53_iq",
    "DSP.NormalizeSine.C53_default_divides_by_zero"
   ],
   "note": ""
  },
  {
   "property": "C54",
   "status": "proved",
   "theorems": [
    "DSP.CDC.C54_downconvert",
    "DSP.CDC.C54_one_tap"
   ],
   "note": ""
  },
  {
   "property": "C55",
   "status": "proved",
   "theorems": [
    "DSP.Hilbert.C55_fir",
    "DSP.Hilbert.C55_one_tap"
   ],
   "note": ""
  },
  {
   "property": "C56",
   "status": "proved",
   "theorems": [
    "DSP.NLMS.C56_step",
    "DSP.NLMS.C56_learns"
   ],
   "note": ""
  },
  {
   "property": "C57",
   "status": "proved",
   "theorems": [
    "DSP.NCLMS.C57_step",
    "DSP.NCLMS.C57_learns"
   ],
   "note": ""
  },
  {
   "property": "C58",
   "status": "proved",
   "theorems": [
    "DSP.NaturalSpline.C58_natural",
    "DSP.NaturalSpline.C58_line",
    "DSP.NaturalSpline.C58_far"
   ],
   "note": ""
  },
  {
   "property": "C59",
   "status": "proved",
   "theorems": [
    "DSP.HermiteSpline.C59_hermite",
    "DSP.HermiteSpline.C59_uniform",
    "DSP.HermiteSpline.C59_line",
    "DSP.HermiteSpline.C59_line_uniform",
    "DSP.HermiteSpline.C59_two_knots"
   ],
   "note": ""
  },
  {
   "property": "C60",
   "status": "proved",
   "theorems": [
    "DSP.Resampler2.C60_positions",
    "DSP.Resampler2.C60_rate",
    "DSP.Resampler2.C60_forever",
    "DSP.Resampler2.C60_asymmetric"
   ],
   "note": ""
  },
  {
   "property": "C61",
   "status": "proved",
   "theorems": [
    "DSP.Resampler.C61_block",
    "DSP.Resampler.C61_division"
   ],
   "note": ""
  },
  {
   "property": "C62",
   "status": "proved",
   "theorems": [
    "DSP.Win.C62_rect",
    "DSP.Win.C62_hann",
    "DSP.Win.C62_hamming",
    "DSP.Win.C62_lanczos",
    "DSP.Win.C62_blackman",
    "DSP.Win.C62_blackman_symmetric",
    "DSP.Win.C62_blackman_negative",
    "DSP.Win.C62_gauss",
    "DSP.Win.C62_accuracy",
    "DSP.Win.C62_single"
   ],
   "note": ""
  },
  {
   "property": "C63",
   "status": "proved",
   "theorems": [
    "DSP.Win.C63_i0",
    "DSP.Win.C63_window",
    "DSP.Win.C63_accuracy"
   ],
   "note": ""
  },
  {
   "property": "C64",
   "status": "proved",
   "theorems": [
    "DSP.Fir.C64_ideal",
    "DSP.Fir.C64_symmetric",
    "DSP.Fir.C64_complement",
    "DSP.Fir.C64_hilbert",
    "DSP.Fir.C64_antisymmetric",
    "DSP.Fir.C64_rational",
    "DSP.Fir.C64_zero_cutoff"
   ],
   "note": ""
  },
  {
   "property": "C65",
   "status": "proved",
   "theorems": [
    "DSP.Coeffs.C65_table",
    "DSP.Coeffs.C65_normalized",
    "DSP.Coeffs.C65_normalize",
    "DSP.Coeffs.C65_zero_sum"
   ],
   "note": ""
  },
  {
   "property": "C66",
   "status": "proved",
   "theorems": [
    "DSP.C66_lerp",
    "DSP.C66_lerp_between",
    "DSP.C66_clamp",
    "DSP.C66_signum",
    "DSP.C66_signum_abs",
    "DSP.C66_sinc",
    "DSP.C66_delta",
    "DSP.C66_normal_pdf"
   ],
   "note": ""
  },
  {
   "property": "C67",
   "status": "proved",
   "theorems": [
    "DSP.C67_accurate",
    "DSP.C67_round_trip",
    "DSP.C67_binary",
    "DSP.C67_code"
   ],
   "note": ""
  },
  {
   "property": "C68",
   "status": "proved",
   "theorems": [
    "DSP.UnitCircle.C68_accurate",
    "DSP.UnitCircle.C68_binary"
   ],
   "note": ""
  },
  {
   "property": "C69",
   "status": "proved",
   "theorems": [
    "DSP.C69_reencode",
    "DSP.C69_within",
    "DSP.C69_saturates",
    "DSP.C69_file"
   ],
   "note": ""
  },
  {
   "property": "C70",
   "status": "proved",
   "theorems": [
    "DSP.NCO.C70_oscillator",
    "DSP.NCO.C70_binary"
   ],
   "note": ""
  },
  {
   "property": "C71",
   "status": "proved",
   "theorems": [
    "DSP.SMAError.C71_sma1",
    "DSP.SMAError.C71_sma2",
    "DSP.SMAError.C71_sma3",
    "DSP.SMAError.C71_sma4",
    "DSP.SMADrift.C71_binary",
    "DSP.SMADrift.C71_sma2_drift",
    "DSP.SMADrift.C71_sma3_drift"
   ],
   "note": ""
  },
  {
   "property": "C72",
   "status": "proved",
   "theorems": [
    "DSP.EMACascade.C72_response",
    "DSP.EMACascade.C72_half_power",
    "DSP.EMACascade.C72_uncorrected",
    "DSP.EMACascade.C72_stuck"
   ],
   "note": "Beyond N/2 the code misbehaves, see C72_stuck."
  },
  {
   "property": "C73",
   "status": "proved",
   "theorems": [
    "DSP.FDZP.C73_sizes"
   ],
   "note": ""
  },
  {
   "property": "C74",
   "status": "proved",
   "theorems": [
    "DSP.EMA.C74_ema",
    "DSP.EMACascade.C74_cascade",
    "DSP.BlockDC.C74_blockdc",
    "DSP.BlockDC.C74_blockdc_constant",
    "DSP.Biquad.C74_biquad",
    "DSP.BiquadCascade.C74_cascade",
    "DSP.EMA.C74_dead_band",
    "DSP.EMA.C74_outside"
   ],
   "note": ""
  },
  {
   "property": "C75",
   "status": "proved",
   "theorems": [
    "DSP.EMA.C75_cutoff",
    "DSP.Biquad.C75_designs",
    "DSP.Biquad.C75_stable",
    "DSP.BiquadCascade.C75_butterworth",
    "DSP.UnitCircle.C75_cos_one",
    "DSP.EMA.C75_stuck",
    "DSP.Biquad.C75_silent",
    "DSP.Biquad.C75_unstable"
   ],
   "note": ""
  },
  {
   "property": "C76",
   "status": "proved",
   "theorems": [
    "DSP.EstimatorError.C76_theil_sen",
    "DSP.EstimatorError.C76_repeated_median",
    "DSP.EstimatorError.C76_repeated_median2",
    "DSP.EstimatorError.C76_theil_sen_robust",
    "DSP.EstimatorError.C76_repeated_median_robust",
    "DSP.EstimatorError.C76_repeated_median2_robust",
    "DSP.EstimatorError.C76_far"
   ],
   "note": ""
  },
  {
   "property": "C77",
   "status": "proved",
   "theorems": [
    "DSP.Elementary.C77_accurate",
    "DSP.Elementary.C77_binary",
    "DSP.Elementary.C77_resolution",
    "DSP.Elementary.C77_flat",
    "DSP.Elementary.C77_flat_level"
   ],
   "note": ""
  },
  {
   "property": "C78",
   "status": "proved",
   "theorems": [
    "DSP.Elementary.C78_ldexp",
    "DSP.Elementary.C78_exp10",
    "DSP.Elementary.C78_zero",
    "DSP.Elementary.C78_idecibel",
    "DSP.Elementary.C78_round_trip"
   ],
   "note": ""
  },
  {
   "property": "C79",
   "status": "proved",
   "theorems": [
    "DSP.Elementary.C79_atan",
    "DSP.Elementary.C79_odd",
    "DSP.Elementary.C79_atan2",
    "DSP.Elementary.C79_negative_zero"
   ],
   "note": ""
  },
  {
   "property": "C80",
   "status": "proved",
   "theorems": [
    "DSP.C80_sort",
    "DSP.C80_select",
    "DSP.C80_values",
    "DSP.C80_worst",
    "DSP.Quick.partLoop_passes",
    "DSP.Quick.sortWork_fst",
    "DSP.Quick.selectWork_fst"
   ],
   "note": ""
  },
  {
   "property": "C81",
   "status": "proved",
   "theorems": [
    "DSP.Resampler2.C81_exact",
    "DSP.Resampler2.Clock.C81_call",
    "DSP.Resampler2.Clock.C81_places",
    "DSP.Resampler2.Clock.C81_never",
    "DSP.Resampler2.Clock.C81_drift",
    "DSP.Resampler.C81_block",
    "DSP.Resampler.C81_offset",
    "DSP.Resampler.C81_ignored"
   ],
   "note": ""
  },
  {
   "property": "C82",
   "status": "proved",
   "theorems": [
    "DSP.C82_half",
    "DSP.C82_padding",
    "DSP.C82_code",
    "DSP.C82_code_padding"
   ],
   "note": ""
  },
  {
   "property": "C83",
   "status": "proved",
   "theorems": [
    "DSP.Win.C83_i0",
    "DSP.Win.C83_kaiser",
    "DSP.Win.C83_kaiser_middle",
    "DSP.Win.C83_hann",
    "DSP.Win.C83_hamming",
    "DSP.Win.C83_blackman",
    "DSP.Win.C83_lanczos",
    "DSP.Win.C83_gauss",
    "DSP.Win.C83_blackman_negative"
   ],
   "note": ""
  },
  {
   "property": "C84",
   "status": "proved",
   "theorems": [
    "DSP.UnitCircle.C84_relative",
    "DSP.UnitCircle.C84_binary",
    "DSP.UnitCircle.C84_signs"
   ],
   "note": ""
  },
  {
   "property": "C85",
   "status": "proved",
   "theorems": [
    "DSP.UnitCircle.C85_symmetric",
    "DSP.UnitCircle.C85_periodic",
    "DSP.UnitCircle.C85_quarter",
    "DSP.UnitCircle.C85_octant"
   ],
   "note": ""
  },
  {
   "property": "C86",
   "status": "proved",
   "theorems": [
    "DSP.Fir.C86_lowPass2",
    "DSP.Fir.C86_highPass2",
    "DSP.Fir.C86_complement",
    "DSP.Fir.C86_symmetric",
    "DSP.Fir.C86_asymmetric",
    "DSP.Fir.C86_hilbert",
    "DSP.Fir.C86_antisymmetric",
    "DSP.Fir.C86_lowPass",
    "DSP.Fir.C86_highPass",
    "DSP.Fir.C86_bandPass"
   ],
   "note": ""
  },
  {
   "property": "C87",
   "status": "proved",
   "theorems": [
    "DSP.Hilbert.C87_hilbert",
    "DSP.CDC.C87_downconvert"
   ],
   "note": ""
  },
  {
   "property": "C88",
   "status": "proved",
   "theorems": [
    "DSP.Coeffs.C88_normalize",
    "DSP.Coeffs.C88_table",
    "DSP.Coeffs.C88_cancels"
   ],
   "note": ""
  },
  {
   "property": "C89",
   "status": "proved",
   "theorems": [
    "DSP.Calculus.C89_integrator",
    "DSP.Calculus.C89_integrator_exact",
    "DSP.Calculus.C89_stuck",
    "DSP.Calculus.C89_differentiator"
   ],
   "note": ""
  },
  {
   "property": "C90",
   "status": "proved",
   "theorems": [
    "DSP.NaturalSpline.C90_natural",
    "DSP.NaturalSpline.C90_last_knot",
    "DSP.HermiteSpline.C90_hermite",
    "DSP.HermiteSpline.C90_uniform"
   ],
   "note": ""
  },
  {
   "property": "C91",
   "status": "proved",
   "theorems": [
    "DSP.NaturalSpline.C91_smoothest",
    "DSP.NaturalSpline.C91_unique"
   ],
   "note": ""
  },
  {
   "property": "C92",
   "status": "proved",
   "theorems": [
    "DSP.AMDRounded.C92_amd",
    "DSP.AMDRounded.C92_limits",
    "DSP.AMDRounded.C92_peak",
    "DSP.NormalizeRounded.C92_normalize"
   ],
   "note": ""
  },
  {
   "property": "C93",
   "status": "proved",
   "theorems": [
    "DSP.FMDRounded.C93_fmd1",
    "DSP.FMDRounded.C93_fmd2",
    "DSP.FMDRounded.C93_fmd3",
    "DSP.FMDRounded.C93_fmd4",
    "DSP.FMDRounded.C93_fmd5"
   ],
   "note": ""
  },
  {
   "property": "C94",
   "status": "proved",
   "theorems": [
    "DSP.Regression.C94_uniform",
    "DSP.Regression.C94_general"
   ],
   "note": ""
  },
  {
   "property": "C95",
   "status": "proved",
   "theorems": [
    "DSP.Nonfinite.C95_ema",
    "DSP.Nonfinite.C95_ema_cascade",
    "DSP.Nonfinite.C95_blockdc",
    "DSP.Nonfinite.C95_biquad",
    "DSP.Nonfinite.C95_biquad_cascade",
    "DSP.Nonfinite.C95_integrator",
    "DSP.Nonfinite.C95_kahan",
    "DSP.Nonfinite.C95_sma2",
    "DSP.Nonfinite.C95_sma3"
   ],
   "note": ""
  },
  {
   "property": "C96",
   "status": "proved",
   "theorems": [
    "DSP.SMA1.C96_sma1",
    "DSP.SMA4.C96_sma4",
    "DSP.Ieee.C96_sma4",
    "DSP.Hilbert.C96_hilbert",
    "DSP.CDC.C96_cdc",
    "DSP.C96_differentiator"
   ],
   "note": ""
  },
  {
   "property": "C97",
   "status": "proved",
   "theorems": [
    "DSP.Silence.C97_blockdc",
    "DSP.Silence.C97_ema",
    "DSP.Silence.C97_blockdc_samples",
    "DSP.Silence.C97_ema_samples"
   ],
   "note": ""
  },
  {
   "property": "C98",
   "status": "proved",
   "theorems": [
    "DSP.Range.C98_ema",
    "DSP.Range.C98_ema_cascade",
    "DSP.Range.C98_sma1",
    "DSP.Range.C98_sma4",
    "DSP.Range.C98_overflow"
   ],
   "note": ""
  },
  {
   "property": "C99",
   "status": "proved",
   "theorems": [
    "DSP.Bridge.C99_integrator",
    "DSP.Bridge.C99_differentiator",
    "DSP.Bridge.C99_kahan",
    "DSP.Bridge.C99_kahan_error",
    "DSP.Bridge.C99_sma1",
    "DSP.Bridge.C99_sma2",
    "DSP.Bridge.C99_sma3",
    "DSP.Bridge.C99_sma4",
    "DSP.Bridge.C99_sma4_error",
    "DSP.Bridge.C99_ema",
    "DSP.Bridge.C99_blockdc",
    "DSP.Bridge.C99_biquad"
   ],
   "note": ""
  },
  {
   "property": "C100",
   "status": "proved",
   "theorems": [
    "DSP.NLMS.Rounded.C100_coefficient",
    "DSP.NLMS.Rounded.C100_input",
    "DSP.NLMS.Rounded.C100_output",
    "DSP.NLMS.Rounded.C100_tiny",
    "DSP.NCLMS.Rounded.C100_coefficient",
    "DSP.NCLMS.Rounded.C100_input",
    "DSP.NCLMS.Rounded.C100_output",
    "DSP.NCLMS.Rounded.C100_tiny"
   ],
   "note": ""
  },
  {
   "property": "C101",
   "status": "proved",
   "theorems": [
    "DSP.NLMS.Rounded.C101_call",
    "DSP.NLMS.Rounded.C101_drift"
   ],
   "note": ""
  },
  {
   "property": "C102",
   "status": "proved",
   "theorems": [
    "DSP.NaturalSpline.C102_range",
    "DSP.NaturalSpline.C102_stable",
    "DSP.NaturalSpline.C102_slope",
    "DSP.NaturalSpline.C102_overshoot"
   ],
   "note": ""
  },
  {
   "property": "C103",
   "status": "proved",
   "theorems": [
    "DSP.Resampler2.Rounded.C103_stream"
   ],
   "note": ""
  },
  {
   "property": "C104",
   "status": "proved",
   "theorems": [
    "DSP.Resampler.Rounded.C104_block"
   ],
   "note": ""
  },
  {
   "property": "C105",
   "status": "proved",
   "theorems": [
    "DSP.NaturalSpline.C105_second",
    "DSP.NaturalSpline.C105_fourth",
    "DSP.NaturalSpline.C105_ends",
    "DSP.HermiteSpline.C105_hermite"
   ],
   "note": ""
  },
  {
   "property": "C106",
   "status": "proved",
   "theorems": [
    "DSP.Resampling.C106_kernel",
    "DSP.Resampler2.C106_stream",
    "DSP.Resampler.C106_block",
    "DSP.Resampling.C106_oldest",
    "DSP.Resampler2.C106_click"
   ],
   "note": ""
  },
  {
   "property": "C107",
   "status": "proved",
   "theorems": [
    "DSP.Hilbert.C107_hilbert",
    "DSP.CDC.C107_cdc"
   ],
   "note": ""
  },
  {
   "property": "C108",
   "status": "proved",
   "theorems": [
    "DSP.FFT.C108_circular",
    "DSP.FFT.C108_linear",
    "DSP.FFT.C108_shift",
    "DSP.FFT.C108_tone"
   ],
   "note": ""
  },
  {
   "property": "C109",
   "status": "proved",
   "theorems": [
    "DSP.AMDRounded.C109_amd",
    "DSP.AMDRounded.C109_amd_nan",
    "DSP.AMDRounded.C109_amd_hold",
    "DSP.AMDRounded.C109_amd_large",
    "DSP.NormalizeRounded.C109_normalize",
    "DSP.NormalizeRounded.C109_normalize_short",
    "DSP.NormalizeRounded.C109_normalize_bad",
    "DSP.NormalizeRounded.C109_normalize_mute",
    "DSP.SchmittTrigger.C109_trigger"
   ],
   "note": ""
  },
  {
   "property": "C110",
   "status": "proved",
   "theorems": [
    "DSP.SMA.C110_sma",
    "DSP.SMA.C110_gain",
    "DSP.BlockDC.C110_blockdc",
    "DSP.BlockDC.C110_blockdc_power",
    "DSP.Calculus.C110_differentiator",
    "DSP.Calculus.C110_integrator"
   ],
   "note": ""
  },
  {
   "property": "C111",
   "status": "proved",
   "theorems": [
    "DSP.Cplx.C111_exact",
    "DSP.Cplx.C111_linear",
    "DSP.Cplx.C111_mul",
    "DSP.Cplx.C111_abs",
    "DSP.Cplx.C111_div",
    "DSP.Cplx.C111_conj",
    "DSP.Cplx.C111_cancel",
    "DSP.Cplx.C111_large",
    "DSP.Cplx.C111_small"
   ],
   "note": ""
  },
  {
   "property": "C112",
   "status": "proved",
   "theorems": [
    "DSP.NCLMS.Rounded.C112_call",
    "DSP.NCLMS.Rounded.C112_drift"
   ],
   "note": ""
  },
  {
   "property": "C113",
   "status": "proved",
   "theorems": [
    "DSP.Quick.C113_sort",
    "DSP.Quick.C113_select",
    "DSP.Quick.C113_runs",
    "DSP.Quick.C113_unsorted",
    "DSP.Quick.C113_middle",
    "DSP.RepeatedMedian.C113_repeated",
    "DSP.TheilSen.C113_theil"
   ],
   "note": ""
  },
  {
   "property": "C114",
   "status": "proved",
   "theorems": [
    "DSP.FFT.C114_spread",
    "DSP.FFT.C114_range",
    "DSP.FFT.C114_code",
    "DSP.FFT.C114_overflow"
   ],
   "note": ""
  },
  {
   "property": "C115",
   "status": "proved",
   "theorems": [
    "DSP.FMDRounded.C115_fmd1",
    "DSP.FMDRounded.C115_fmd2",
    "DSP.FMDRounded.C115_fmd3",
    "DSP.FMDRounded.C115_fmd4",
    "DSP.FMDRounded.C115_fmd5",
    "DSP.FMDRounded.C115_recovery",
    "DSP.FMDRounded.C115_weak",
    "DSP.FMDRounded.C115_strong"
   ],
   "note": ""
  },
  {
   "property": "C116",
   "status": "proved",
   "theorems": [
    "DSP.FM.C116_fm",
    "DSP.FM.C116_fm4",
    "DSP.FM.C116_fm5",
    "DSP.AMD.C116_am",
    "DSP.AMD.C116_am_floor",
    "DSP.AMD.C116_am_scale",
    "DSP.NormalizeSine.C116_ripple",
    "DSP.NormalizeSine.C116_normalize",
    "DSP.NormalizeSine.C116_normalize_amplitude"
   ],
   "note": ""
  },
  {
   "property": "C117",
   "status": "proved",
   "theorems": [
    "DSP.FFT.C117_spread",
    "DSP.FFT.C117_range",
    "DSP.FFT.C117_code",
    "DSP.FDZP.Rounded.C117_padding"
   ],
   "note": ""
  },
  {
   "property": "C118",
   "status": "proved",
   "theorems": [
    "DSP.FFT.C118_transform",
    "DSP.FFT.C118_real",
    "DSP.FDZP.Rounded.C118_padding"
   ],
   "note": ""
  },
  {
   "property": "C119",
   "status": "proved",
   "theorems": [
    "DSP.C119_fir",
    "DSP.C119_windows",
    "DSP.C119_functions",
    "DSP.C119_coeffs",
    "DSP.C119_splines",
    "DSP.C119_hilbert",
    "DSP.C119_cdc",
    "DSP.C119_transform",
    "DSP.C119_real",
    "DSP.C119_padding",
    "DSP.C119_lms",
    "DSP.C119_clms",
    "DSP.C119_amd",
    "DSP.C119_normalize",
    "DSP.C119_phasor",
    "DSP.C119_fmd"
   ],
   "note": ""
  },
  {
   "property": "C120",
   "status": "proved",
   "theorems": [
    "DSP.C120_atan",
    "DSP.C120_atan2",
    "DSP.C120_lost",
    "DSP.C120_zero",
    "DSP.C120_infinite",
    "DSP.C120_nan",
    "DSP.C120_minus_zero"
   ],
   "note": ""
  },
  {
   "property": "C121",
   "status": "proved",
   "theorems": [
    "DSP.C121_ldexp",
    "DSP.C121_exp10",
    "DSP.C121_exp10_special",
    "DSP.C121_lost"
   ],
   "note": ""
  },
  {
   "property": "C122",
   "status": "proved",
   "theorems": [
    "DSP.C122_decibel",
    "DSP.C122_zero",
    "DSP.C122_zero_single",
    "DSP.C122_special",
    "DSP.C122_idecibel"
   ],
   "note": ""
  },
  {
   "property": "C123",
   "status": "proved",
   "theorems": [
    "DSP.C123_ratio",
    "DSP.C123_level"
   ],
   "note": ""
  },
  {
   "property": "C124",
   "status": "proved",
   "theorems": [
    "DSP.NormalizeIQRounded.C124_round",
    "DSP.NormalizeIQRounded.C124_exact",
    "DSP.NormalizeIQRounded.C124_separate",
    "DSP.NormalizeIQRounded.C124_damage"
   ],
   "note": ""
  },
  {
   "property": "C125",
   "status": "proved",
   "theorems": [
    "DSP.Regression.C125_uniform",
    "DSP.Regression.C125_general"
   ],
   "note": ""
  },
  {
   "property": "C126",
   "status": "proved",
   "theorems": [
    "DSP.Regression.C126_uniform",
    "DSP.Regression.C126_places",
    "DSP.Regression.C126_values",
    "DSP.Regression.C126_limits"
   ],
   "note": ""
  },
  {
   "property": "C127",
   "status": "proved",
   "theorems": [
    "DSP.Cplx.C127_polar",
    "DSP.Cplx.C127_radius",
    "DSP.Cplx.C127_angle",
    "DSP.Cplx.C127_back"
   ],
   "note": ""
  },
  {
   "property": "C128",
   "status": "proved",
   "theorems": [
    "DSP.NaturalSpline.C128_ruined",
    "DSP.NaturalSpline.C128_nowhere",
    "DSP.NaturalSpline.C128_range",
    "DSP.HermiteSpline.C128_local",
    "DSP.HermiteSpline.C128_places",
    "DSP.HermiteSpline.C128_range",
    "DSP.C128_limits"
   ],
   "note": ""
  },
  {
   "property": "C129",
   "status": "proved",
   "theorems": [
    "DSP.C129_rms",
    "DSP.C129_energy",
    "DSP.C129_round_trip",
    "DSP.C129_code",
    "DSP.C129_code_round_trip"
   ],
   "note": ""
  },
  {
   "property": "C130",
   "status": "proved",
   "theorems": [
    "DSP.C130_circular",
    "DSP.C130_filter",
    "DSP.C130_code"
   ],
   "note": ""
  },
  {
   "property": "C131",
   "status": "proved",
   "theorems": [
    "DSP.FMDRounded.C131_fmd1",
    "DSP.FMDRounded.C131_fmd2",
    "DSP.FMDRounded.C131_fmd3",
    "DSP.FMDRounded.C131_fmd4",
    "DSP.FMDRounded.C131_fmd5"
   ],
   "note": ""
  },
  {
   "property": "C132",
   "status": "proved",
   "theorems": [
    "DSP.AMDRounded.C132_amd",
    "DSP.NormalizeRounded.C132_normalize"
   ],
   "note": ""
  },
  {
   "property": "C133",
   "status": "proved",
   "theorems": [
    "DSP.NCO.C133_oscillator",
    "DSP.NCO.C133_stuck"
   ],
   "note": ""
  },
  {
   "property": "C134",
   "status": "proved",
   "theorems": [
    "DSP.UnitCircle.C134_accurate",
    "DSP.UnitCircle.C134_factors",
    "DSP.UnitCircle.C134_transform",
    "DSP.UnitCircle.C134_oscillator"
   ],
   "note": ""
  },
  {
   "property": "C135",
   "status": "proved",
   "theorems": [
    "DSP.C135_within",
    "DSP.C135_saturates",
    "DSP.C135_reencode",
    "DSP.C135_file",
    "DSP.C135_nan"
   ],
   "note": ""
  },
  {
   "property": "C136",
   "status": "proved",
   "theorems": [
    "DSP.C136_range",
    "DSP.C136_nan"
   ],
   "note": ""
  },
  {
   "property": "C137",
   "status": "proved",
   "theorems": [
    "DSP.Hilbert.C137_hilbert",
    "DSP.CDC.C137_downconvert"
   ],
   "note": ""
  },
  {
   "property": "C138",
   "status": "proved",
   "theorems": [
    "DSP.C138_encode",
    "DSP.C138_decode",
    "DSP.C138_codes"
   ],
   "note": ""
  },
  {
   "property": "C139",
   "status": "proved",
   "theorems": [
    "DSP.Resampler2.Machine.C139_values",
    "DSP.Resampler2.Machine.C139_stream",
    "DSP.Resampler2.Machine.C139_recovers",
    "DSP.Resampler2.Machine.C139_nan",
    "DSP.Resampler2.Machine.C139_never",
    "DSP.Resampler2.Machine.C139_infinite"
   ],
   "note": ""
  },
  {
   "property": "C140",
   "status": "proved",
   "theorems": [
    "DSP.Resampler.Machine.C140_block",
    "DSP.Resampler.Machine.C140_local",
    "DSP.Resampler.Machine.C140_stuck",
    "DSP.Resampler.Machine.C140_undefined",
    "DSP.Resampler.Machine.C140_division"
   ],
   "note": ""
  },
  {
   "property": "C141",
   "status": "proved",
   "theorems": [
    "DSP.UtilsIeee.C141_lerp",
    "DSP.UtilsIeee.C141_ends",
    "DSP.UtilsIeee.C141_far",
    "DSP.UtilsIeee.C141_constant",
    "DSP.UtilsIeee.C141_clamp",
    "DSP.UtilsIeee.C141_clamp_nan",
    "DSP.UtilsIeee.C141_signum",
    "DSP.UtilsIeee.C141_sinc",
    "DSP.UtilsIeee.C141_sinc_accurate",
    "DSP.UtilsIeee.C141_sinc_far"
   ],
   "note": ""
  },
  {
   "property": "C142",
   "status": "proved",
   "theorems": [
    "DSP.Win.C142_bounded",
    "DSP.Win.C142_hann",
    "DSP.Win.C142_hamming",
    "DSP.Win.C142_blackman",
    "DSP.Win.C142_blackman_exact",
    "DSP.Win.C142_lanczos",
    "DSP.Win.C142_kaiser_nan"
   ],
   "note": ""
  },
  {
   "property": "C143",
   "status": "proved",
   "theorems": [
    "DSP.Win.C143_i0",
    "DSP.Win.C143_kaiser"
   ],
   "note": ""
  }
 ]
}
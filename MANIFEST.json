{
 "claims": [
  {
   "property": "C01",
   "status": "proved",
   "theorems": [
    "Verif.C01_labels_content",
    "Verif.C01_labels_length"
   ],
   "note": "All inputs of sanitize_labels."
  },
  {
   "property": "C02",
   "status": "partial",
   "theorems": [
    "Verif.C02_index_list",
    "Verif.C02_index_partial",
    "Verif.C02_termination_iff",
    "Verif.C02_termination_violated"
   ],
   "note": "Normalisation proved under the exact termination condition; the while loop does not terminate for an empty axis (C02_termination_violated, C02_termination_iff)."
  },
  {
   "property": "C03",
   "status": "partial",
   "theorems": [
    "Verif.C03_empty_axis_violated",
    "Verif.C03_float_key",
    "Verif.C03_int_key_partial",
    "Verif.C03_last_element_violated",
    "Verif.C03_slice_key",
    "Verif.C03_split"
   ],
   "note": "Integer and float keys, slices and the split of an axis; the integer key -1 selects nothing instead of the last element (C03_last_element_violated); slices of an empty axis do not terminate (C03_empty_axis_violated)."
  },
  {
   "property": "C04",
   "status": "partial",
   "theorems": [
    "Verif.Signal.C04_channels_time",
    "Verif.Signal.C04_labels",
    "Verif.Signal.C04_slice_time_partial",
    "Verif.Signal.C04_violated"
   ],
   "note": "Proved for start >= -length (or none); C04_violated gives a witness for start < -length. Keys with a step are not modelled."
  },
  {
   "property": "C05",
   "status": "proved",
   "theorems": [
    "Verif.Signal.C05_pad",
    "Verif.Signal.C05_pad_crop",
    "Verif.Spectrogram.C05_spectrogram_pad",
    "Verif.Spectrum.C05_spectrum_pad"
   ],
   "note": "Signals and spectrums; every length, value and memory content."
  },
  {
   "property": "C06",
   "status": "proved",
   "theorems": [
    "Verif.Signal.C06_crop",
    "Verif.Signal.C06_offset",
    "Verif.Signal.C06_offset_compose",
    "Verif.Signal.C06_offset_none"
   ],
   "note": "Modes OFFSET and CROP, all signals and integer shifts."
  },
  {
   "property": "C07",
   "status": "partial",
   "theorems": [
    "Verif.Signal.C07_negative_not_moved",
    "Verif.Signal.C07_negative_violated",
    "Verif.Signal.C07_pad_partial"
   ],
   "note": "Proved for non-negative shifts; for negative shifts the samples are never moved (C07_negative_not_moved), which contradicts the documentation (C07_negative_violated)."
  },
  {
   "property": "C08",
   "status": "partial",
   "theorems": [
    "Verif.Signal.C08_cycle_inverse",
    "Verif.Signal.C08_cycle_partial",
    "Verif.Signal.C08_large_shift_identity",
    "Verif.Signal.C08_large_shift_violated"
   ],
   "note": "Rotation proved for |shift| <= length, inverse for all shifts; for |shift| > length the signal is returned unrotated (C08_large_shift_identity, C08_large_shift_violated)."
  },
  {
   "property": "C09",
   "status": "partial",
   "theorems": [
    "Verif.Signal.C09_negated_time_partial",
    "Verif.Signal.C09_negated_time_violated",
    "Verif.Signal.C09_reversed_involutive",
    "Verif.Signal.C09_reversed_samples",
    "Verif.Signal.C09_time_shifted"
   ],
   "note": "Involution and sample order proved for all signals; the documented negation of the time axis holds for one sample only (C09_negated_time_violated, C09_time_shifted gives the exact position)."
  },
  {
   "property": "C10",
   "status": "partial",
   "theorems": [
    "Verif.Signal.C10_pointwise_partial",
    "Verif.Signal.C10_zero_channels_violated"
   ],
   "note": "All pairs of signals except one channel with zero channels, arbitrary operator, pivot and memory; C10_zero_channels_violated shows the exception for the excluded combination."
  },
  {
   "property": "C11",
   "status": "proved",
   "theorems": [
    "Verif.Signal.C11_add_assoc",
    "Verif.Signal.C11_add_comm",
    "Verif.Signal.C11_add_value",
    "Verif.Signal.C11_mixed_channels_violated",
    "Verif.Signal.C11_sub_eq_add_neg"
   ],
   "note": "Commutativity for all channel counts, associativity for equal channel counts (as claimed), a-b = a+(-b) for the samples (labels differ). C11_mixed_channels_violated shows that associativity fails for 2, 1 and 3 channels, which is outside of the claim."
  },
  {
   "property": "C12",
   "status": "partial",
   "theorems": [
    "Verif.Signal.C12_assoc_violated",
    "Verif.Signal.C12_mul_assoc_partial",
    "Verif.Signal.C12_mul_comm"
   ],
   "note": "Commutativity for all signals; associativity without gaps between the operands; C12_assoc_violated is a witness with a gap."
  },
  {
   "property": "C13",
   "status": "partial",
   "theorems": [
    "Verif.Signal.C13_eq_iff",
    "Verif.Signal.C13_hash",
    "Verif.Signal.C13_nan_violated",
    "Verif.Signal.C13_refl_partial",
    "Verif.Signal.C13_symm",
    "Verif.Signal.C13_trans"
   ],
   "note": "Signals; comparison and hash of the samples are arbitrary functions. Reflexivity needs samples without NaN (C13_nan_violated). Spectrums and spectrograms inherit the same method from SampledData, their own parameters are compared the same way and are not modelled separately."
  },
  {
   "property": "C14",
   "status": "proved",
   "theorems": [
    "Verif.Signal.C14_array",
    "Verif.Signal.C14_array_right",
    "Verif.Signal.C14_wrong_shape"
   ],
   "note": "Numbers, rows, columns and matrices in both operand orders, and rejection of all other shapes."
  },
  {
   "property": "C15",
   "status": "partial",
   "theorems": [
    "Verif.Spectrum.C15_binwise_partial",
    "Verif.Spectrum.C15_covered",
    "Verif.Spectrum.C15_length_mismatch",
    "Verif.Spectrum.C15_one_bin_violated"
   ],
   "note": "Equal numbers of bins, all numbers of channels, operators, pivots and memory contents; other numbers of bins are rejected (C15_length_mismatch), except for a second spectrum with one bin, whose value is applied to all bins (C15_one_bin_violated)."
  },
  {
   "property": "C16",
   "status": "partial",
   "theorems": [
    "Verif.Spectrogram.C16_pointwise_partial",
    "Verif.Spectrogram.C16_zero_channels_violated"
   ],
   "note": "Two spectrograms with arbitrary shapes and offsets, arbitrary operator with a right-neutral pivot; one channel with zero channels fails (C16_zero_channels_violated). Operands of other types are treated in separate properties."
  },
  {
   "property": "C17",
   "status": "proved",
   "theorems": [
    "Verif.Signal.C17_commutative",
    "Verif.Signal.C17_full"
   ],
   "note": "All non-empty signals, all offsets and channel counts, samples in any non-associative commutative semiring; numpy.convolve is specified as the finite sum it documents."
  },
  {
   "property": "C18",
   "status": "proved",
   "theorems": [
    "Verif.Signal.C18_same",
    "Verif.Signal.C18_valid"
   ],
   "note": "As C17; the VALID range is characterised by complete overlap, SAME by its length and its centred position."
  },
  {
   "property": "C19",
   "status": "proved",
   "theorems": [
    "Verif.Signal.C19_padded",
    "Verif.Signal.C19_spectrum"
   ],
   "note": "Real samples in exact arithmetic; rfft/irfft are defined as DFT sums and the convolution theorem is proved in Dft.lean and Fft.lean."
  },
  {
   "property": "C20",
   "status": "proved",
   "theorems": [
    "Verif.Signal.C20_full",
    "Verif.Signal.C20_same",
    "Verif.Signal.C20_valid"
   ],
   "note": "As C17, for any non-associative semiring."
  },
  {
   "property": "C21",
   "status": "proved",
   "theorems": [
    "Verif.Signal.C21_padded",
    "Verif.Signal.C21_spectrum"
   ],
   "note": "As C19."
  },
  {
   "property": "C22",
   "status": "proved",
   "theorems": [
    "Verif.Concatenate.C22_empty",
    "Verif.Concatenate.C22_signals",
    "Verif.Concatenate.C22_spectrograms"
   ],
   "note": "Signals and spectrograms with arbitrary offsets, lengths and channel counts; every output sample is the sum of the samples of the delayed data sets, without influence of uninitialised memory."
  },
  {
   "property": "C23",
   "status": "partial",
   "theorems": [
    "Verif.Merge.C23_empty_dataset_violated",
    "Verif.Merge.C23_filters_partial",
    "Verif.Merge.C23_invalid_mode",
    "Verif.Merge.C23_nothing",
    "Verif.Merge.C23_signals_partial",
    "Verif.Merge.C23_spectrograms_partial",
    "Verif.Merge.C23_spectrums_partial"
   ],
   "note": "Signals, spectrums, spectrograms and filters in both modes. FIRST_CHANNELS_FIRST needs that every data set has at least one channel; C23_empty_dataset_violated is the counterexample."
  },
  {
   "property": "C24",
   "status": "proved",
   "theorems": [
    "Verif.MultiInput.C24_concatenate",
    "Verif.MultiInput.C24_events",
    "Verif.MultiInput.C24_failure",
    "Verif.MultiInput.C24_history",
    "Verif.MultiInput.C24_identifiers",
    "Verif.MultiInput.C24_init",
    "Verif.MultiInput.C24_merge"
   ],
   "note": "Arbitrary histories of add/remove/replace calls, for Merge and Concatenate. connectors.MultiInputData is an external package; it is assumed to be an ordered dictionary, whose add method chooses an unused key."
  },
  {
   "property": "C25",
   "status": "partial",
   "theorems": [
    "Verif.Jack.C25_constant_blocks",
    "Verif.Jack.C25_continues_violated",
    "Verif.Jack.C25_output",
    "Verif.Jack.C25_playback_partial",
    "Verif.Jack.C25_replay_violated"
   ],
   "note": "All signals, all contents of the buffers, all sequences of block sizes, where no block other than the first one contains the end of the signal in its middle (for constant block sizes: the size divides the length or is not smaller than the length). C25_replay_violated and C25_continues_violated show, that the playback is repeated otherwise. Threads and the JACK server are not modelled."
  },
  {
   "property": "C26",
   "status": "partial",
   "theorems": [
    "Verif.RudinShapiro.C26_negative_stop_violated",
    "Verif.RudinShapiro.C26_samples_partial"
   ],
   "note": "All lengths and memory contents, non-negative frequencies; a negative stop frequency leaves uninitialised memory in the output (C26_negative_stop_violated)."
  },
  {
   "property": "C27",
   "status": "partial",
   "theorems": [
    "Verif.Fade.C27_fade_in_monotone",
    "Verif.Fade.C27_fade_out_antitone",
    "Verif.Fade.C27_overlap_violated",
    "Verif.Fade.C27_range_partial",
    "Verif.Fade.C27_samples"
   ],
   "note": "Every sample for all combinations of intervals inside of the signal and every window function. Range and monotony hold for all but a fade out-in with overlapping slopes, which exceeds one (C27_overlap_violated)."
  },
  {
   "property": "C28",
   "status": "proved",
   "theorems": [
    "Verif.EnergyDecay.C28_monotone",
    "Verif.EnergyDecay.C28_samples",
    "Verif.EnergyDecay.C28_total"
   ],
   "note": "All signals with samples in an ordered field; the normalisation to the maximum and the logarithm belong to other methods."
  },
  {
   "property": "C29",
   "status": "proved",
   "theorems": [
    "Verif.Interpolation.C29_array",
    "Verif.Interpolation.C29_linear",
    "Verif.Interpolation.C29_linear_reproduces",
    "Verif.Interpolation.C29_log_x_reproduces",
    "Verif.Interpolation.C29_log_y_reproduces",
    "Verif.Interpolation.C29_logarithmic_reproduces",
    "Verif.Interpolation.C29_single",
    "Verif.Interpolation.C29_stairs_lin",
    "Verif.Interpolation.C29_stairs_log",
    "Verif.Interpolation.C29_supporting_points",
    "Verif.Interpolation.C29_zero_one"
   ],
   "note": "Exact at the supporting points in every mode (duplicates: the first one); arrays are evaluated element by element; the interpolated values in every mode for strictly increasing supporting points in exact arithmetic (logarithmic modes: positive real numbers). numpy.interp and numpy.searchsorted are modelled by their documentation."
  },
  {
   "property": "C30",
   "status": "partial",
   "theorems": [
    "Verif.Blockwise.C30_covered",
    "Verif.Blockwise.C30_distinct",
    "Verif.Blockwise.C30_positions_cropped",
    "Verif.Blockwise.C30_positions_padded",
    "Verif.Blockwise.C30_positions_short",
    "Verif.Blockwise.C30_short_violated",
    "Verif.Blockwise.C30_transform",
    "Verif.Stft.C30_stft",
    "Verif.Stft.C30_stft_covered",
    "Verif.Stft.C30_stft_cropped"
   ],
   "note": "Block-wise transform: the positions of the segments with and without padding, their distinctness, the coverage of all samples and the values of the transform. STFT: positions, coverage and values. Violated: signals, which are shorter than the window, lose the segment at their first sample in the block-wise transform."
  },
  {
   "property": "C31",
   "status": "partial",
   "theorems": [
    "Verif.Filter.C31_arithmetic_partial",
    "Verif.Filter.C31_bands_violated",
    "Verif.Filter.C31_linear_bands_violated",
    "Verif.Filter.C31_operators_partial",
    "Verif.Filter.C31_zero_bands_violated"
   ],
   "note": "Proved for expressions of constructors and operators, in which bands are interpolated with zeros or stairs, without mixing differences and transforms. Violated by bands with other interpolations and by bands, that are interpolated with ones, in products."
  },
  {
   "property": "C32",
   "status": "partial",
   "theorems": [
    "Verif.Filter.C32_constructors_partial",
    "Verif.Filter.C32_difference_add",
    "Verif.Filter.C32_difference_negate",
    "Verif.Filter.C32_difference_partial",
    "Verif.Filter.C32_difference_sub",
    "Verif.Filter.C32_difference_violated",
    "Verif.Filter.C32_invert_transform_partial",
    "Verif.Filter.C32_invert_transform_violated",
    "Verif.Filter.C32_transformed_evaluation"
   ],
   "note": "Evaluating with the transform flag is evaluating with 1/s, proved for all terms; invert_transform and the constructors proved for terms without differences. Violated by differences, whose minuend is zero."
  },
  {
   "property": "C33",
   "status": "partial",
   "theorems": [
    "Verif.Filter.C33_positive_frequencies",
    "Verif.Filter.C33_spectrum_partial",
    "Verif.Filter.C33_untransformed_partial",
    "Verif.Filter.C33_zero_hertz_partial",
    "Verif.Filter.C33_zero_hertz_violated"
   ],
   "note": "At frequencies greater than zero for all filters; without transforms at all frequencies. At 0 Hz, the value of a channel is proved to be zero, if this channel or any channel before it uses the transform, so the order of the channels matters (C33_zero_hertz_violated)."
  },
  {
   "property": "C34",
   "status": "partial",
   "theorems": [
    "Verif.Filter.C34_empty_bands_violated",
    "Verif.Filter.C34_exception_violated",
    "Verif.Filter.C34_filter_values_partial",
    "Verif.Filter.C34_filters",
    "Verif.Filter.C34_is_zero_partial",
    "Verif.Filter.C34_symmetry_partial",
    "Verif.Filter.C34_symmetry_violated",
    "Verif.Filter.C34_values_partial",
    "Verif.Filter.C34_values_violated"
   ],
   "note": "Equal plain terms have equal values; == is symmetric for plain terms without the constant zero. Violated by the constant zero against zero polynomials, by bands interpolated with ones, by empty bands and by an exception for bands with different numbers of points."
  },
  {
   "property": "C35",
   "status": "partial",
   "theorems": [
    "Verif.Filter.C35_bands",
    "Verif.Filter.C35_complex_violated",
    "Verif.Filter.C35_saving",
    "Verif.Filter.C35_values_partial"
   ],
   "note": "Values and labels are restored for the plain terms of C31, if loading succeeds; bands with all interpolations and complex values are restored exactly; the filters that can be saved are characterised, so complex numbers in other terms than bands cannot be saved (C35_complex_violated). json.dump/load are modelled to restore everything but complex numbers."
  },
  {
   "property": "C36",
   "status": "partial",
   "theorems": [
    "Verif.Filter.C36_accepted",
    "Verif.Filter.C36_channels",
    "Verif.Filter.C36_neutral",
    "Verif.Filter.C36_numbers",
    "Verif.Filter.C36_rejected",
    "Verif.Filter.C36_values_partial",
    "Verif.Filter.C36_values_violated"
   ],
   "note": "All filters, operators and numbers; the values of the result are proved for the plain terms of C31. Violated: the values of the sum of filters with bands are not the sums of the values."
  },
  {
   "property": "C37",
   "status": "proved",
   "theorems": [
    "Verif.Filter.C37_cutoff",
    "Verif.Filter.C37_magnitude",
    "Verif.Filter.C37_monotonic",
    "Verif.Filter.C37_order_zero"
   ],
   "note": "All orders greater than zero, cutoff frequencies and non-negative frequencies, low- and highpass, exact real arithmetic; an order of zero raises a ZeroDivisionError. Negative orders are not modelled."
  },
  {
   "property": "C38",
   "status": "proved",
   "theorems": [
    "Verif.Filter.C38_exact",
    "Verif.Filter.C38_gain",
    "Verif.Filter.C38_value"
   ],
   "note": "All orders; the coefficients are integers in the model, the values are evaluated in exact complex arithmetic."
  },
  {
   "property": "C39",
   "status": "proved",
   "theorems": [
    "Verif.Filter.C39_delays_add",
    "Verif.Filter.C39_derivative",
    "Verif.Filter.C39_magnitude",
    "Verif.Filter.C39_value"
   ],
   "note": "All delays and non-negative frequencies, exact complex arithmetic."
  },
  {
   "property": "C40",
   "status": "proved",
   "theorems": [
    "Verif.Filter.C40_c_limits",
    "Verif.Filter.C40_labels",
    "Verif.Filter.C40_weighting"
   ],
   "note": "All five weighting filters of the implementation; besides the gain of one at 1000 Hz, the magnitude is proved to be the normative function at all non-negative frequencies, exact real arithmetic."
  },
  {
   "property": "C41",
   "status": "proved",
   "theorems": [
    "Verif.Filter.C41_from_to_real",
    "Verif.Filter.C41_to_from_complex",
    "Verif.Filter.C41_to_from_real",
    "Verif.Filter.C41_values"
   ],
   "note": "All bands with positive values or arbitrary levels, all positive references, all non-zero factors, exact real arithmetic; complex values, that are real and positive, too."
  },
  {
   "property": "C42",
   "status": "partial",
   "theorems": [
    "Verif.Windows.C42_functions_middle",
    "Verif.Windows.C42_functions_range",
    "Verif.Windows.C42_functions_symmetric",
    "Verif.Windows.C42_odd_rest_violated",
    "Verif.Windows.C42_palindrome",
    "Verif.Windows.C42_periodic",
    "Verif.Windows.C42_plateau_partial",
    "Verif.Windows.C42_samples"
   ],
   "note": "All five kinds of windows, every plateau up to the length and both symmetries; symmetric windows are palindromes, periodic ones are cropped symmetric ones; the plateau is one sample longer than requested if the rest is odd (C42_odd_rest_violated)."
  },
  {
   "property": "C43",
   "status": "proved",
   "theorems": [
    "Verif.Windows.C43_constant",
    "Verif.Windows.C43_full_overlap",
    "Verif.Windows.C43_hann_multiple",
    "Verif.Windows.C43_hann_overlap",
    "Verif.Windows.C43_hann_scaling",
    "Verif.Windows.C43_scaling_factor"
   ],
   "note": "The scaling factor for all windows, the general law for windows whose repetitions add up to a constant, periodic Hann windows with N-fold overlap; exact real arithmetic."
  },
  {
   "property": "C44",
   "status": "proved",
   "theorems": [
    "Verif.Sweep.C44_exponential",
    "Verif.Sweep.C44_inverse_exponential",
    "Verif.Sweep.C44_inverse_linear",
    "Verif.Sweep.C44_linear"
   ],
   "note": "Real numbers instead of floats. The phase of each sweep is proved to have the instantaneous frequency as derivative; the inverse sweep's samples are those of the sweep at the opposite time index times a constant (linear) or an envelope, that is proportional to the frequency (exponential). The claim, that the convolution of both is approximately an impulse, is not covered."
  },
  {
   "property": "C45",
   "status": "partial",
   "theorems": [
    "Verif.Harmonic.C45_harmonic",
    "Verif.Harmonic.C45_length_partial",
    "Verif.Harmonic.C45_length_violated",
    "Verif.Harmonic.C45_linear",
    "Verif.Harmonic.C45_unmodified_partial",
    "Verif.Harmonic.C45_unmodified_violated"
   ],
   "note": "Channel count, sampling rate, labels and the requested length, if it is not smaller than the number of channels; the samples for the linear part and for harmonics that start at a sample. Violated: short lengths are ignored for signals with many channels, and without a length, the harmonics change the given impulse response's samples."
  },
  {
   "property": "C46",
   "status": "partial",
   "theorems": [
    "Verif.Persistence.C46_history",
    "Verif.Persistence.C46_order",
    "Verif.Persistence.C46_remember_violated",
    "Verif.Persistence.C46_stored_partial",
    "Verif.Persistence.C46_success"
   ],
   "note": "All sets of readers and all histories of calls. The readers are tried in the documented order and the first success is returned; the promised memory of successful readers is never filled (C46_remember_violated). Readers are modelled as deterministic functions."
  },
  {
   "property": "C47",
   "status": "partial",
   "theorems": [
    "Verif.Persistence.C47_auto_partial",
    "Verif.Persistence.C47_content_violated",
    "Verif.Persistence.C47_created",
    "Verif.Persistence.C47_first",
    "Verif.Persistence.C47_format",
    "Verif.Persistence.C47_missing_library_violated",
    "Verif.Persistence.C47_other_exceptions_violated"
   ],
   "note": "All sets of writers and all histories of calls. Violated: a remembered writer can write another format than the first one of the extension, exceptions other than ValueError stop the search and a missing library raises an ImportError instead of the documented ValueError."
  },
  {
   "property": "C48",
   "status": "proved",
   "theorems": [
    "Verif.Text.C48_digits_injective",
    "Verif.Text.C48_ordinal"
   ],
   "note": "All natural numbers; the digits are proved to determine the number."
  },
  {
   "property": "C49",
   "status": "proved",
   "theorems": [
    "Verif.Audio.C49_error",
    "Verif.Audio.C49_exact",
    "Verif.Audio.C49_full_scale",
    "Verif.Audio.C49_representable",
    "Verif.Audio.C49_roundtrip",
    "Verif.Audio.C49_success"
   ],
   "note": "All six integer formats of the standard library, all numbers of channels and samples, down to the bytes in the file; writing succeeds exactly if all samples are representable and there is a channel. Samples are exact rational numbers; the header of the file is modelled as a record."
  },
  {
   "property": "C50",
   "status": "partial",
   "theorems": [
    "Verif.Table.C50_empty_violated",
    "Verif.Table.C50_one_bin_violated",
    "Verif.Table.C50_one_sample_partial",
    "Verif.Table.C50_one_sample_violated",
    "Verif.Table.C50_signal_csv",
    "Verif.Table.C50_signal_npy",
    "Verif.Table.C50_spectrum_csv",
    "Verif.Table.C50_spectrum_npy"
   ],
   "note": "All signals and spectrums with at least one channel, at least two samples and a positive sampling rate or resolution, in exact arithmetic; the lines of CSV files may be in any order. NPY files do not contain the labels. Signals and spectrums with one sample lose the sampling rate, the offset or the resolution; empty ones also lose the number of channels (violated). The conversion between numbers and text is not modelled."
  },
  {
   "property": "C51",
   "status": "partial",
   "theorems": [
    "Verif.Filter.C51_csv",
    "Verif.Filter.C51_csv_no_labels",
    "Verif.Filter.C51_csv_text",
    "Verif.Filter.C51_labels",
    "Verif.Filter.C51_negative_frequency_violated",
    "Verif.Filter.C51_no_channels_violated",
    "Verif.Filter.C51_npy_partial",
    "Verif.Filter.C51_npz_partial",
    "Verif.Filter.C51_other_terms",
    "Verif.Filter.C51_short_line_violated",
    "Verif.Filter.C51_table",
    "Verif.Filter.C51_text"
   ],
   "note": "All bands with sorted frequencies. The rows of the table are characterised; CSV, text tables (without negative frequencies), NPY and NPZ files (with at least one channel) restore all channels. Labels are only restored from CSV and NPZ, the interpolations only from NPZ. Violated for filters without channels, text lines with less columns and negative frequencies. The conversion between numbers and text is not modelled."
  },
  {
   "property": "C52",
   "status": "proved",
   "theorems": [
    "Verif.Fourier.C52_odd",
    "Verif.Fourier.C52_one",
    "Verif.Fourier.C52_signal",
    "Verif.Fourier.C52_signal_exact",
    "Verif.Fourier.C52_spectrum",
    "Verif.Fourier.C52_spectrum_exact",
    "Verif.Fourier.C52_transform"
   ],
   "note": "Exact arithmetic instead of floating point; the discrete Fourier transform is defined by its sum. Proved: every bin is the sum of the samples times exp(-2*pi*i*f*t) with the times of the samples including the offset; the round trip of signals with even length (rotated by the offset, exact without offset), of single samples and of spectrums with at least two bins; signals with odd lengths from three on lose one sample."
  },
  {
   "property": "C53",
   "status": "partial",
   "theorems": [
    "Verif.Mls.C53_bits",
    "Verif.Mls.C53_length",
    "Verif.Mls.C53_one_bit_violated",
    "Verif.Mls.C53_samples_partial",
    "Verif.Mls.C53_seed",
    "Verif.Mls.C53_seed_violated"
   ],
   "note": "All bit counts from 2 to 32; lengths up to one without a given number of bits and a single bit that is drawn as zero are counterexamples. scipy.signal.max_len_seq is modelled by its documented contract."
  },
  {
   "property": "C54",
   "status": "partial",
   "theorems": [
    "Verif.Level.C54_abs",
    "Verif.Level.C54_constant_violated",
    "Verif.Level.C54_corner_violated",
    "Verif.Level.C54_integer_partial",
    "Verif.Level.C54_level_partial",
    "Verif.Level.C54_memory_violated"
   ],
   "note": "Real numbers instead of floats. Proved for integration times of an integer number of samples (more generally: if the rounded up half of the window exceeds the exact half by 0 or 1/2), for the absolute value if the window is shorter than a sample, with and without padding. Violated: for other integration times the outermost weight is that of the part outside of the interval; without padding, one sample of signals, that are as long as the window, is scaled by uninitialised memory; signals, that are one sample longer than half the window, get a constant level."
  },
  {
   "property": "C55",
   "status": "proved",
   "theorems": [
    "Verif.Jack.C55_port_names",
    "Verif.Jack.C55_port_names_short"
   ],
   "note": "All tuples of labels, including labels which are not strings; the while-loop is proved to terminate."
  },
  {
   "property": "C56",
   "status": "partial",
   "theorems": [
    "Verif.Jack.C56_ambiguous_name_violated",
    "Verif.Jack.C56_dropped_partial",
    "Verif.Jack.C56_kept_partial",
    "Verif.Jack.C56_negative_index_violated"
   ],
   "note": "Non-negative indices, names and port objects; negative indices and short names, which are shared with ports of other clients, are counterexamples."
  },
  {
   "property": "C57",
   "status": "partial",
   "theorems": [
    "Verif.Jack.C57_delay_violated",
    "Verif.Jack.C57_xrun_partial"
   ],
   "note": "The counting and the range are as documented; the delay is multiplied with 1e6 instead of 1e-6 (C57_delay_violated)."
  },
  {
   "property": "C58",
   "status": "proved",
   "theorems": [
    "Verif.EnergyDecay.C58_decay_model",
    "Verif.EnergyDecay.C58_reverberation_time"
   ],
   "note": "All sampling rates, limits with at least two samples and numbers of channels, real arithmetic. numpy.linalg.lstsq is an arbitrary function, that minimises the squared error."
  },
  {
   "property": "C59",
   "status": "proved",
   "theorems": [
    "Verif.Windows.C59_amplitude_flatness",
    "Verif.Windows.C59_complete_overlap",
    "Verif.Windows.C59_correlation_range",
    "Verif.Windows.C59_correlation_zero",
    "Verif.Windows.C59_flat",
    "Verif.Windows.C59_flatness_range",
    "Verif.Windows.C59_overlap_correlation",
    "Verif.Windows.C59_power_flatness"
   ],
   "note": "All windows with one channel and samples in an ordered field, all overlaps smaller than the length (correlation: up to the length)."
  },
  {
   "property": "C60",
   "status": "partial",
   "theorems": [
    "Verif.Filter.C60_sum_violated",
    "Verif.Filter.C60_transformed_primitives",
    "Verif.Filter.C60_zero_hertz_partial"
   ],
   "note": "The value of every term at 0 Hz is characterised; sums of transformed and untransformed terms are zero instead of the value of the untransformed terms (C60_sum_violated)."
  },
  {
   "property": "C61",
   "status": "proved",
   "theorems": [
    "Verif.Filter.C61_slicing",
    "Verif.Filter.C61_values"
   ],
   "note": "Single keys; filters are indexed with one key for the channels."
  },
  {
   "property": "C62",
   "status": "proved",
   "theorems": [
    "Verif.Filter.C62_even_order",
    "Verif.Filter.C62_highpass",
    "Verif.Filter.C62_magnitude",
    "Verif.Filter.C62_mirrored",
    "Verif.Filter.C62_no_ripple",
    "Verif.Filter.C62_odd_order"
   ],
   "note": "All orders greater than zero, cutoff frequencies, ripples and non-negative frequencies, low- and highpass, exact real arithmetic; without ripple it is the Butterworth filter. The amplification (even orders) and the attenuation (odd orders) in the pass band are proved for low- and highpass filters."
  },
  {
   "property": "C63",
   "status": "partial",
   "theorems": [
    "Verif.Filter.C63_magnitude_partial",
    "Verif.Filter.C63_stop_band",
    "Verif.Filter.C63_zero_hertz_violated"
   ],
   "note": "All orders greater than zero, cutoff frequencies, ripples other than zero, all positive frequencies and the lowpass at 0 Hz, exact real arithmetic. The highpass with an even order is zero at 0 Hz instead of the attenuation of the stop band (C63_zero_hertz_violated)."
  },
  {
   "property": "C64",
   "status": "proved",
   "theorems": [
    "Verif.Filter.C64_channels",
    "Verif.Filter.C64_labels",
    "Verif.Filter.C64_sorted",
    "Verif.Filter.C64_success"
   ],
   "note": "All sequences of dictionaries; the last interpolation or extrapolation of a sequence, that is shorter than the sequence of dictionaries, is repeated and an empty sequence raises an IndexError."
  },
  {
   "property": "C65",
   "status": "partial",
   "theorems": [
    "Verif.Table.C65_empty_row",
    "Verif.Table.C65_invalid_axis",
    "Verif.Table.C65_invalid_number",
    "Verif.Table.C65_negative_error_violated",
    "Verif.Table.C65_negative_violated",
    "Verif.Table.C65_ragged_rows",
    "Verif.Table.C65_signal",
    "Verif.Table.C65_signal_unlabeled",
    "Verif.Table.C65_spectrum_partial",
    "Verif.Table.C65_spectrum_unlabeled"
   ],
   "note": "All tables with a constant distance between the rows; signals with all offsets, spectrums from 0 Hz on. Tables with negative frequencies raise a ValueError or are filled with the last sample (violated)."
  },
  {
   "property": "C66",
   "status": "partial",
   "theorems": [
    "Verif.Container.C66_defaults",
    "Verif.Container.C66_empty_spectrogram_violated",
    "Verif.Container.C66_empty_spectrum_violated",
    "Verif.Container.C66_no_channels_violated",
    "Verif.Container.C66_npz_hash_spectrum_violated",
    "Verif.Container.C66_npz_hash_violated",
    "Verif.Container.C66_signal_json",
    "Verif.Container.C66_signal_npz",
    "Verif.Container.C66_spectrogram_defaults",
    "Verif.Container.C66_spectrogram_json",
    "Verif.Container.C66_spectrogram_shape",
    "Verif.Container.C66_spectrum_defaults",
    "Verif.Container.C66_spectrum_json",
    "Verif.Container.C66_spectrum_npz"
   ],
   "note": "All signals with at least one channel and all non-empty spectrums and spectrograms for JSON, all signals and spectrums for NPZ. Violated: signals without channels cannot be loaded from JSON, empty spectrums get one channel, empty spectrograms get two-dimensional channels and data sets from NPZ files cannot be hashed."
  },
  {
   "property": "C67",
   "status": "proved",
   "theorems": [
    "Verif.Blockwise.C67_constant",
    "Verif.Blockwise.C67_hann",
    "Verif.Blockwise.C67_rectangular_window",
    "Verif.Blockwise.C67_weighted"
   ],
   "note": "Exact arithmetic; the sampling rates of the signal and the window are the same. The weighting of each sample is proved for every window, the equality for windows that add up to a constant, and for the call with an even window length and default parameters (Hann window, overlap 0.5, padding)."
  },
  {
   "property": "C68",
   "status": "partial",
   "theorems": [
    "Verif.Stft.C68_offset",
    "Verif.Stft.C68_phase_partial",
    "Verif.Stft.C68_phase_violated"
   ],
   "note": "The offset is proved to be the nearest integer. The phases are proved to be those of the documented delay for windows with at most two samples, for remainders of zero and at 0 Hz. Violated: the other bins are delayed by about twice the remainder, because the maximum frequency is computed for a full spectrum."
  },
  {
   "property": "C69",
   "status": "proved",
   "theorems": [
    "Verif.Stft.C69_hann",
    "Verif.Stft.C69_inverse"
   ],
   "note": "Exact arithmetic with the documented results of scipy's functions. C69_hann instantiates the theorem with the call, that has an even window length and otherwise default parameters."
  },
  {
   "property": "C70",
   "status": "proved",
   "theorems": [
    "Verif.Sweep.C70_attained_exponential",
    "Verif.Sweep.C70_attained_linear",
    "Verif.Sweep.C70_exponential",
    "Verif.Sweep.C70_linear"
   ],
   "note": "For linear and exponential sweeps and their inverses; real numbers instead of floats."
  },
  {
   "property": "C71",
   "status": "partial",
   "theorems": [
    "Verif.Harmonic.C71_delay_partial",
    "Verif.Harmonic.C71_delay_violated"
   ],
   "note": "Proved for even numbers of samples. Violated for odd numbers of samples, where the frequencies of the bins are computed with the wrong length."
  },
  {
   "property": "C72",
   "status": "partial",
   "theorems": [
    "Verif.Level.C72_bound",
    "Verif.Level.C72_constant_partial",
    "Verif.Level.C72_constant_violated",
    "Verif.Level.C72_mean",
    "Verif.Level.C72_single"
   ],
   "note": "Real numbers instead of floats. The statement about the level versus time is limited to the integration times of C54_integer_partial. Violated: the level versus time of a constant signal, that is as long as the window, depends on uninitialised memory."
  },
  {
   "property": "C73",
   "status": "partial",
   "theorems": [
    "Verif.Spectrogram.C73_signal_partial",
    "Verif.Spectrogram.C73_signal_right_partial",
    "Verif.Spectrogram.C73_zero_channels_violated"
   ],
   "note": "The samples of both operands have the same type; the pivot has to be neutral as second operand. Violated: the channel of a spectrogram is lost, if it is combined with a signal without channels and the same time range."
  },
  {
   "property": "C74",
   "status": "partial",
   "theorems": [
    "Verif.Spectrogram.C74_other_frequencies",
    "Verif.Spectrogram.C74_spectrum_partial",
    "Verif.Spectrogram.C74_spectrum_right_partial",
    "Verif.Spectrogram.C74_zero_channels_violated"
   ],
   "note": "The samples of both operands have the same type; the pivot has to be neutral as second operand. Violated: the channel of a spectrogram is lost, if it is combined with a spectrum without channels."
  },
  {
   "property": "C75",
   "status": "partial",
   "theorems": [
    "Verif.Windows.C75_exponential",
    "Verif.Windows.C75_exponential_corners",
    "Verif.Windows.C75_gaussian",
    "Verif.Windows.C75_gaussian_range",
    "Verif.Windows.C75_parzen_ends_partial",
    "Verif.Windows.C75_parzen_ends_violated"
   ],
   "note": "Real numbers instead of floats; scipy's functions are modelled by the formulas of scipy's source. Violated: the Parzen window never reaches zero."
  },
  {
   "property": "C76",
   "status": "partial",
   "theorems": [
    "Verif.Windows.C76_flat_top",
    "Verif.Windows.C76_flat_top_peak",
    "Verif.Windows.C76_nuttall",
    "Verif.Windows.C76_nuttall_peak",
    "Verif.Windows.C76_palindrome",
    "Verif.Windows.C76_single_sample_violated",
    "Verif.Windows.C76_terms",
    "Verif.Windows.C76_unknown"
   ],
   "note": "Real numbers instead of floats. Violated: a flat top window with one sample is the reciprocal of the sum of the coefficients."
  },
  {
   "property": "C77",
   "status": "partial",
   "theorems": [
    "Verif.Windows.C77_blackman_harris",
    "Verif.Windows.C77_fast_and_suppressed",
    "Verif.Windows.C77_flat_top_partial",
    "Verif.Windows.C77_hann_hamming_blackman",
    "Verif.Windows.C77_hft169d_violated",
    "Verif.Windows.C77_nuttall"
   ],
   "note": "For the shape, from which the samples of the windows are taken, with the exact decimal coefficients. Violated: the coefficients of the HFT169D window are not accurate enough, its side lobes decay with 6 dB per octave. The decay of the Parzen window is not covered, because its shape depends on the length (C78)."
  },
  {
   "property": "C78",
   "status": "partial",
   "theorems": [
    "Verif.Windows.C78_functions_partial",
    "Verif.Windows.C78_parzen_violated",
    "Verif.Windows.C78_plateau",
    "Verif.Windows.C78_windows"
   ],
   "note": "Not modelled: the Slepian window. Violated by the Parzen window."
  },
  {
   "property": "C79",
   "status": "proved",
   "theorems": [
    "Verif.Windows.C79_bartlett_hann",
    "Verif.Windows.C79_bartlett_hann_range",
    "Verif.Windows.C79_bohman",
    "Verif.Windows.C79_palindrome",
    "Verif.Windows.C79_symmetric"
   ],
   "note": "Real numbers instead of floats."
  },
  {
   "property": "C80",
   "status": "partial",
   "theorems": [
    "Verif.Windows.C80_bandwidth_partial",
    "Verif.Windows.C80_bandwidth_violated",
    "Verif.Windows.C80_scalloping_loss",
    "Verif.Windows.C80_scalloping_loss_range",
    "Verif.Windows.C80_scalloping_loss_rectangular"
   ],
   "note": "Real numbers instead of floats. The oversampling factor is a positive integer. The bandwidth is characterised for windows, whose magnitude drops below -3 dB. Violated: it is infinite for windows with one sample."
  },
  {
   "property": "C81",
   "status": "proved",
   "theorems": [
    "Verif.Windows.C81_empty",
    "Verif.Windows.C81_recommended_overlap",
    "Verif.Windows.C81_rectangular"
   ],
   "note": "In exact arithmetic of a linearly ordered field."
  },
  {
   "property": "C82",
   "status": "proved",
   "theorems": [
    "Verif.Waves.C82_cosine",
    "Verif.Waves.C82_half_period",
    "Verif.Waves.C82_sine",
    "Verif.Waves.C82_square",
    "Verif.Waves.C82_whole_periods",
    "Verif.Waves.C82_zero_rate"
   ],
   "note": "Real numbers instead of floats."
  },
  {
   "property": "C83",
   "status": "proved",
   "theorems": [
    "Verif.Waves.C83_signal",
    "Verif.Waves.C83_spectrogram",
    "Verif.Waves.C83_spectrum"
   ],
   "note": "For arbitrary types of the samples."
  },
  {
   "property": "C84",
   "status": "partial",
   "theorems": [
    "Verif.Spectrogram.C84_crop",
    "Verif.Spectrogram.C84_cycle_partial",
    "Verif.Spectrogram.C84_large_shift_violated",
    "Verif.Spectrogram.C84_negative_violated",
    "Verif.Spectrogram.C84_offset",
    "Verif.Spectrogram.C84_offset_none",
    "Verif.Spectrogram.C84_pad",
    "Verif.Spectrogram.C84_shift_pad_partial"
   ],
   "note": "Violated: negative shifts in the mode PAD do not move the values, shifts in the mode CYCLE by more than the length do not rotate them."
  },
  {
   "property": "C85",
   "status": "proved",
   "theorems": [
    "Verif.Spectrogram.C85_pad",
    "Verif.Spectrogram.C85_shift"
   ],
   "note": "For arbitrary sample types; the functions are those of the models of signals and spectrograms."
  },
  {
   "property": "C86",
   "status": "partial",
   "theorems": [
    "Verif.Spectrogram.C86_bins",
    "Verif.Spectrogram.C86_channels",
    "Verif.Spectrogram.C86_labels",
    "Verif.Spectrogram.C86_slice_partial",
    "Verif.Spectrogram.C86_violated",
    "Verif.Spectrum.C86_spectrum",
    "Verif.Spectrum.C86_spectrum_channels",
    "Verif.Spectrum.C86_spectrum_labels"
   ],
   "note": "Violated: if the start of the time slice is below -length, the offset of the result is too small."
  },
  {
   "property": "C87",
   "status": "proved",
   "theorems": [
    "Verif.Spectrogram.C87_spectrogram_equivalence",
    "Verif.Spectrogram.C87_spectrogram_hash",
    "Verif.Spectrogram.C87_spectrogram_iff",
    "Verif.Spectrum.C87_spectrum_equivalence",
    "Verif.Spectrum.C87_spectrum_hash",
    "Verif.Spectrum.C87_spectrum_iff"
   ],
   "note": "The comparison of samples and python's hash functions are parameters; reflexivity is assumed of the comparison of samples (not NaN)."
  },
  {
   "property": "C88",
   "status": "proved",
   "theorems": [
    "Verif.Spectrogram.C88_spectrogram",
    "Verif.Spectrogram.C88_spectrogram_wrong_shape",
    "Verif.Spectrum.C88_invert",
    "Verif.Spectrum.C88_spectrum"
   ],
   "note": "For arbitrary sample types and operations."
  },
  {
   "property": "C89",
   "status": "proved",
   "theorems": [
    "Verif.Axes.C89_duration",
    "Verif.Axes.C89_increasing",
    "Verif.Axes.C89_maximum",
    "Verif.Axes.C89_same_time",
    "Verif.Axes.C89_signal",
    "Verif.Axes.C89_spectrogram_frequency",
    "Verif.Axes.C89_spectrogram_time",
    "Verif.Axes.C89_spectrum",
    "Verif.Axes.C89_zero_rate"
   ],
   "note": "Real numbers instead of floats; numpy.linspace by its documented formula."
  },
  {
   "property": "C90",
   "status": "proved",
   "theorems": [
    "Verif.Spectrogram.C90_spectrogram_involution",
    "Verif.Spectrogram.C90_spectrogram_operators",
    "Verif.Spectrogram.C90_spectrogram_parts",
    "Verif.Spectrum.C90_spectrum_involution",
    "Verif.Spectrum.C90_spectrum_operators",
    "Verif.Spectrum.C90_spectrum_parts",
    "Verif.Spectrum.C90_spectrum_polar_unique",
    "Verif.Spectrum.C90_spectrum_products"
   ],
   "note": "Exact complex numbers instead of floats."
  },
  {
   "property": "C91",
   "status": "partial",
   "theorems": [
    "Verif.Level.C91_complex_violated",
    "Verif.Level.C91_empty",
    "Verif.Level.C91_odd_violated",
    "Verif.Level.C91_one_bin_violated",
    "Verif.Level.C91_signal",
    "Verif.Level.C91_spectrum_partial"
   ],
   "note": "Exact arithmetic. Proved for signals with even lengths (any offset) and spectrums with at least two bins and real first and last bins. Violated: spectrums with one bin have a level, that is larger by a factor of sqrt(2), the imaginary part of the first and last bin is counted, and the transforms of signals with odd lengths have another level."
  },
  {
   "property": "C92",
   "status": "partial",
   "theorems": [
    "Verif.Inverse.C92_convolve_partial",
    "Verif.Inverse.C92_cyclic",
    "Verif.Inverse.C92_default_mode_violated",
    "Verif.Inverse.C92_empty",
    "Verif.Inverse.C92_involution",
    "Verif.Inverse.C92_odd_violated",
    "Verif.Inverse.C92_padding_violated",
    "Verif.Inverse.C92_singular"
   ],
   "note": "Exact complex arithmetic. The cyclic convolution with the inverse is the impulse for all lengths. The convolution of the signals is proved for even lengths and the mode SPECTRUM. Violated: signals with odd lengths, because the convolution is computed with an even period, the default mode FULL of the convolution, signals with odd lengths, that have a cyclic inverse, while the padded signal has none."
  },
  {
   "property": "C93",
   "status": "partial",
   "theorems": [
    "Verif.FilterApply.C93_delay",
    "Verif.FilterApply.C93_gain",
    "Verif.FilterApply.C93_not_finite",
    "Verif.FilterApply.C93_odd_violated",
    "Verif.FilterApply.C93_sinusoid_partial",
    "Verif.FilterApply.C93_spectrogram",
    "Verif.FilterApply.C93_spectrum",
    "Verif.FilterApply.C93_spectrum_other_channels"
   ],
   "note": "Exact complex arithmetic. Filtering signals is proved for even lengths. Violated: filtering a signal with an odd length changes the length and the sampling rate."
  },
  {
   "property": "C94",
   "status": "proved",
   "theorems": [
    "Verif.Statistics.C94_affine",
    "Verif.Statistics.C94_channels",
    "Verif.Statistics.C94_empty",
    "Verif.Statistics.C94_level",
    "Verif.Statistics.C94_pearson",
    "Verif.Statistics.C94_range",
    "Verif.Statistics.C94_reversed",
    "Verif.Statistics.C94_rotated",
    "Verif.Statistics.C94_single_value",
    "Verif.Statistics.C94_total",
    "Verif.Statistics.C94_total_level"
   ],
   "note": "Real numbers instead of floats. The functions of numpy and scipy are modelled by their documented formulas."
  },
  {
   "property": "C95",
   "status": "partial",
   "theorems": [
    "Verif.Jack.World.C95_activate",
    "Verif.Jack.World.C95_channels_violated",
    "Verif.Jack.World.C95_connect_activate",
    "Verif.Jack.World.C95_connect_inactive",
    "Verif.Jack.World.C95_connect_partial",
    "Verif.Jack.World.C95_deactivate",
    "Verif.Jack.World.C95_deactivate_inactive",
    "Verif.Jack.World.C95_external_violated",
    "Verif.Jack.World.C95_index_violated",
    "Verif.Jack.World.C95_outputs_partial",
    "Verif.Jack.World.C95_reactivate",
    "Verif.Jack.World.C95_unknown"
   ],
   "note": "The JACK server is modelled by its documented behaviour. Proved for connections, in which a port of the client is involved, and for new signals with at least as many channels. Violated: a new signal without the channel of a connected port raises an IndexError, connecting external ports twice raises a JackError at the next activation, an index without a port raises an IndexError instead of the documented ValueError. Connections between ports of the same client are not considered, when the output ports change."
  },
  {
   "property": "C96",
   "status": "partial",
   "theorems": [
    "Verif.Filter.BandsText.C96_dot_violated",
    "Verif.Filter.BandsText.C96_empty_line",
    "Verif.Filter.BandsText.C96_file_partial",
    "Verif.Filter.BandsText.C96_formats",
    "Verif.Filter.BandsText.C96_header",
    "Verif.Filter.BandsText.C96_infinity_violated",
    "Verif.Filter.BandsText.C96_integer_violated",
    "Verif.Filter.BandsText.C96_line",
    "Verif.Filter.BandsText.C96_number",
    "Verif.Filter.BandsText.C96_parentheses",
    "Verif.Filter.BandsText.C96_tokens"
   ],
   "note": "python's repr and float are a parameter with the documented form of the texts (numpy 1); finite floats without the negative zero. Violated: integer frequencies are written as complex numbers and cannot be read, an unescaped dot joins an integer frequency with a value, that has an exponent, infinite values are skipped, so that the columns are shifted."
  },
  {
   "property": "C97",
   "status": "partial",
   "theorems": [
    "Verif.AudioFile.C97_exact",
    "Verif.AudioFile.C97_flac_partial",
    "Verif.AudioFile.C97_flac_supported",
    "Verif.AudioFile.C97_flac_violated",
    "Verif.AudioFile.C97_idempotent",
    "Verif.AudioFile.C97_monotone",
    "Verif.AudioFile.C97_ogg",
    "Verif.AudioFile.C97_wav"
   ],
   "note": "Exact rational sampling rates. FLAC's supported values are the integers up to 65535 and the multiples of ten up to 655350. Violated: sampling rates between 65535.5 and 65537.5 are rounded to 65540 in FLAC files."
  },
  {
   "property": "C98",
   "status": "partial",
   "theorems": [
    "Verif.Noise.C98_labels",
    "Verif.Noise.C98_mean",
    "Verif.Noise.C98_metadata",
    "Verif.Noise.C98_prefix",
    "Verif.Noise.C98_range_partial",
    "Verif.Noise.C98_seed",
    "Verif.Noise.C98_triangular_default",
    "Verif.Noise.C98_triangular_distribution",
    "Verif.Noise.C98_uniform_distribution",
    "Verif.Noise.C98_uniform_violated"
   ],
   "note": "Real numbers instead of floats. numpy's random number generator is a parameter, that fulfils the documented contract of the distributions; the example gives a generator, that fulfils it. The shape of the distribution is proved for the uniform and the triangular noise, the mean value for all kinds, whose parameters are documented by it. Violated: with equal boundaries, the samples of the uniform noise are not smaller than the upper boundary."
  },
  {
   "property": "C99",
   "status": "partial",
   "theorems": [
    "Verif.Signal.C99_array",
    "Verif.Signal.C99_correlation_partial",
    "Verif.Signal.C99_correlation_violated",
    "Verif.Signal.C99_number",
    "Verif.Signal.C99_number_spectrum",
    "Verif.Signal.C99_scalar",
    "Verif.Signal.C99_vector"
   ],
   "note": "Arrays: all convolvers, including the exceptions. Numbers: all five modes of the convolution for signals, that are not empty. Violated: correlating with a number does not reverse the signal, although correlating with an array of one sample does."
  },
  {
   "property": "C100",
   "status": "partial",
   "theorems": [
    "Verif.Filter.C100_bands",
    "Verif.Filter.C100_derived_violated",
    "Verif.Filter.C100_primitive",
    "Verif.Filter.C100_term",
    "Verif.Filter.C100_type",
    "Verif.Filter.C100_values_partial"
   ],
   "note": "The lexer and the parser of python are modelled for the expressions, that occur in the texts; repr and float are a parameter with the documented form of the texts (numpy 1); finite floats without the negative zero. Restored exactly: bands filters and filters of primitive terms; the values of compound terms are proved for the plain terms of C31. Violated: filters of derived classes are saved with the name of their class, which is not known, when the text is evaluated."
  },
  {
   "property": "C101",
   "status": "partial",
   "theorems": [
    "Verif.DataRepr.C101_derived_violated",
    "Verif.DataRepr.C101_empty_violated",
    "Verif.DataRepr.C101_homogeneous",
    "Verif.DataRepr.C101_one_line",
    "Verif.DataRepr.C101_signal_partial",
    "Verif.DataRepr.C101_spectrogram_partial",
    "Verif.DataRepr.C101_spectrum_partial"
   ],
   "note": "The same simplifications of the texts of numbers as in C100. Proved for all data with at least one sample. Violated: data without samples (e.g. Signal() with the default parameters) is restored with a one-dimensional array without channels or raises an IndexError, and the text of derived classes has the name of the derived class, which cannot be evaluated."
  },
  {
   "property": "C102",
   "status": "partial",
   "theorems": [
    "Verif.Filter.C102_bessel",
    "Verif.Filter.C102_butterworth",
    "Verif.Filter.C102_chebyshev1",
    "Verif.Filter.C102_chebyshev2",
    "Verif.Filter.C102_weighting_partial",
    "Verif.Filter.C102_weighting_violated"
   ],
   "note": "Exact real and complex numbers. Proved completely for Butterworth, Chebyshev 1, Chebyshev 2 and Bessel filters of every positive order; the weighting filters are stable and have a minimum phase. Violated: the impulse responses of the weighting filters are not real, because they are normalised with a complex gain."
  },
  {
   "property": "C103",
   "status": "partial",
   "theorems": [
    "Verif.Signal.C103_associative",
    "Verif.Signal.C103_correlation_exchanged",
    "Verif.Signal.C103_correlation_partial",
    "Verif.Signal.C103_correlation_violated",
    "Verif.Signal.C103_distributive",
    "Verif.Signal.C103_gain",
    "Verif.Signal.C103_impulse",
    "Verif.Signal.C103_labels_violated",
    "Verif.Signal.C103_shift"
   ],
   "note": "Mode FULL (the others are cut out of it, C18), samples of a commutative semiring (exact arithmetic). Associativity for all combinations of channel numbers; distributivity for two summands with the same number of channels. Violated: the convolution with the reversed signal is shifted in comparison to the correlation, and the labels depend on the order of the operands."
  },
  {
   "property": "C104",
   "status": "partial",
   "theorems": [
    "Verif.Fourier.C104_convolution",
    "Verif.Fourier.C104_reversed_partial",
    "Verif.Fourier.C104_reversed_violated",
    "Verif.Fourier.C104_shift",
    "Verif.Fourier.C104_sum"
   ],
   "note": "Exact real and complex numbers. The convolution theorem is proved for all lengths and offsets and for channel numbers, that are equal or one. Violated: the spectrum of the reversed signal has an additional delay."
  },
  {
   "property": "C105",
   "status": "partial",
   "theorems": [
    "Verif.Concatenate.C105_concatenate_blocks",
    "Verif.Concatenate.C105_concatenate_nested_first_partial",
    "Verif.Concatenate.C105_concatenate_nested_first_violated",
    "Verif.Concatenate.C105_concatenate_nested_last",
    "Verif.Concatenate.C105_concatenate_shift",
    "Verif.Merge.C105_cut_channel",
    "Verif.Merge.C105_cut_merged",
    "Verif.Merge.C105_merge_groups",
    "Verif.Signal.C105_pad_slice",
    "Verif.Signal.C105_slice_slice"
   ],
   "note": "Signals with exact samples. The blocks are shifted to the offset 0, so the restored signal has the offset 0 and numbered labels. Violated: concatenating the first signals in advance changes the result, when one of them ends before the end of its predecessor."
  },
  {
   "property": "C106",
   "status": "partial",
   "theorems": [
    "Verif.Signal.C106_exponential",
    "Verif.Signal.C106_mod_mod",
    "Verif.Signal.C106_mod_negative",
    "Verif.Signal.C106_mod_positive",
    "Verif.Signal.C106_mod_shift",
    "Verif.Signal.C106_mod_signals_partial",
    "Verif.Signal.C106_mod_signals_violated",
    "Verif.Signal.C106_mod_zero",
    "Verif.Signal.C106_power_add",
    "Verif.Signal.C106_power_add_natural",
    "Verif.Signal.C106_power_natural",
    "Verif.Signal.C106_power_one",
    "Verif.Signal.C106_power_power",
    "Verif.Signal.C106_power_signals",
    "Verif.Signal.C106_power_square",
    "Verif.Signal.C106_right_commutative",
    "Verif.Signal.C106_right_div",
    "Verif.Signal.C106_right_sub",
    "Verif.Signal.C106_rmod",
    "Verif.Signal.C106_root_of_square",
    "Verif.Signal.C106_undo",
    "Verif.Spectrum.C106_spectrum_power_inverse",
    "Verif.Spectrum.C106_spectrum_power_natural",
    "Verif.Spectrum.C106_spectrum_power_square"
   ],
   "note": "Exact real and complex numbers; the results nan and inf of numpy are arbitrary parameters. Violated: where only the divisor has samples, the remainder of two signals is the divisor."
  },
  {
   "property": "C107",
   "status": "partial",
   "theorems": [
    "Verif.FilterApply.C107_cascade_partial",
    "Verif.FilterApply.C107_cascade_violated",
    "Verif.FilterApply.C107_commute",
    "Verif.FilterApply.C107_impulse_response",
    "Verif.FilterApply.C107_inverse_partial",
    "Verif.FilterApply.C107_linear",
    "Verif.FilterApply.C107_superposition",
    "Verif.FilterApply.C107_time_invariant"
   ],
   "note": "Exact real and complex numbers, where nan and inf are one additional value. The laws of products and inverses are proved for all frequencies but 0 Hz and for plain terms. Violated: the product of filters with two channels can differ from the cascade at 0 Hz."
  },
  {
   "property": "C108",
   "status": "proved",
   "theorems": [
    "Verif.EnergyDecay.C108_decay_gain",
    "Verif.EnergyDecay.C108_decay_model",
    "Verif.EnergyDecay.C108_decay_tail",
    "Verif.EnergyDecay.C108_regression",
    "Verif.EnergyDecay.C108_reverberation_gain",
    "Verif.Level.C108_channel_levels",
    "Verif.Level.C108_level_gain",
    "Verif.Level.C108_level_monotone",
    "Verif.Level.C108_level_triangle"
   ],
   "note": "Exact real numbers; numpy.linalg.lstsq is an arbitrary function that minimises the squared error. The samples, of which the logarithm is computed, are positive. The level over time is compared for the same content of the uninitialised array, that is read by the code (C54)."
  },
  {
   "property": "C109",
   "status": "proved",
   "theorems": [
    "Verif.Fourier.C109_constant",
    "Verif.Fourier.C109_padding",
    "Verif.Fourier.C109_padding_multiple",
    "Verif.Fourier.C109_repeated",
    "Verif.Fourier.C109_sine"
   ],
   "note": "Exact real and complex numbers. The repeated signal has the offset 0."
  },
  {
   "property": "C110",
   "status": "proved",
   "theorems": [
    "Verif.Mls.C110_autocorrelation",
    "Verif.Mls.C110_balance",
    "Verif.Mls.C110_maximal",
    "Verif.Mls.C110_patterns",
    "Verif.Mls.C110_period",
    "Verif.Mls.C110_periods",
    "Verif.Mls.C110_seeds",
    "Verif.Mls.C110_spectrum"
   ],
   "note": "The shift register of scipy.signal.max_len_seq is modelled with its table of taps. The primitivity of its 31 polynomials is proved with certificates, that are checked by the kernel. Exact real numbers for the spectrum."
  },
  {
   "property": "C111",
   "status": "proved",
   "theorems": [
    "Verif.RudinShapiro.C111_crest_factor",
    "Verif.RudinShapiro.C111_peak"
   ],
   "note": "Exact real and complex numbers. The resolution is a rational number, that is converted to a real one for the inverse transform."
  },
  {
   "property": "C112",
   "status": "partial",
   "theorems": [
    "Verif.Files.C112_associated",
    "Verif.Files.C112_associated_spectrogram",
    "Verif.Files.C112_associated_spectrum",
    "Verif.Files.C112_associated_violated",
    "Verif.Files.C112_audio",
    "Verif.Files.C112_audio_auto_partial",
    "Verif.Files.C112_full_scale_violated",
    "Verif.Files.C112_missing_library",
    "Verif.Files.C112_signal",
    "Verif.Files.C112_signal_auto",
    "Verif.Files.C112_signal_npy",
    "Verif.Files.C112_soundfile",
    "Verif.Files.C112_spectrogram",
    "Verif.Files.C112_spectrogram_auto",
    "Verif.Files.C112_spectrum",
    "Verif.Files.C112_spectrum_auto"
   ],
   "note": "Exact rational samples for signals and exact complex samples for spectrums; the file system stores the content unchanged. The library soundfile is a parameter, that refuses other files and decodes integer audio files like the standard library does. Violated: no reader of the standard library is associated with the extensions of AIFF files; without soundfile, signals with a sample of 1.0 cannot be saved to WAV and AIFF files with the format AUTO."
  },
  {
   "property": "C113",
   "status": "proved",
   "theorems": [
    "Verif.Windows.C113_equiripple",
    "Verif.Windows.C113_optimal",
    "Verif.Windows.C113_palindrome",
    "Verif.Windows.C113_samples",
    "Verif.Windows.C113_side_lobes"
   ],
   "note": "Exact real numbers. The function chebwin of scipy is modelled statement by statement. The attenuation zero, for which the sample in the middle would be divided by zero, is excluded, because the documentation asks for a positive attenuation."
  },
  {
   "property": "C114",
   "status": "partial",
   "theorems": [
    "Verif.Windows.C114_created_violated",
    "Verif.Windows.C114_normalized_partial",
    "Verif.Windows.C114_refused",
    "Verif.Windows.C114_samples_partial",
    "Verif.Windows.C114_short",
    "Verif.Windows.C114_unique"
   ],
   "note": "Exact real numbers. The function dpss of scipy is modelled statement by statement, the solver eigh_tridiagonal is a parameter with the contract, that it returns a normalized eigenvector for the largest eigenvalue. Violated: with the default value of beta, windows with three to six samples raise a ValueError."
  },
  {
   "property": "C115",
   "status": "proved",
   "theorems": [
    "Verif.Windows.C115_concentration",
    "Verif.Windows.C115_main_lobe",
    "Verif.Windows.C115_side_lobes",
    "Verif.Windows.C115_unique"
   ],
   "note": "Exact real and complex numbers; symmetric windows without a plateau, that can be created (C114). The solver eigh_tridiagonal is a parameter with the contract, that it returns a normalized eigenvector for the largest eigenvalue of the tridiagonal matrix. That this eigenvector is the optimal one, is proved with the commuting sinc kernel and the differential equation of its spectrum."
  },
  {
   "property": "C116",
   "status": "partial",
   "theorems": [
    "Verif.Filter.C116_constant",
    "Verif.Filter.C116_cutoff_partial",
    "Verif.Filter.C116_cutoff_violated",
    "Verif.Filter.C116_highpass",
    "Verif.Filter.C116_highpass_violated",
    "Verif.Filter.C116_lowpass",
    "Verif.Filter.C116_monotone"
   ],
   "note": "Exact real and complex numbers. The group delay is defined by the derivative of a continuous phase, whose existence is proved. Violated: the group delay of highpass filters is not constant in the pass band, it decreases with the square of the frequency; the attenuation at the cutoff frequency is smaller than 3 dB for orders greater than one, as the documentation of the class concedes."
  },
  {
   "property": "C117",
   "status": "proved",
   "theorems": [
    "Verif.Sweep.C117_cut",
    "Verif.Sweep.C117_delay",
    "Verif.Sweep.C117_nonlinear",
    "Verif.Sweep.C117_synchronized"
   ],
   "note": "Exact real numbers. The last theorem requires, that the delay of the harmonic is an integer number of samples and that the harmonic is completely contained in the impulse response (C45 and C71 describe the other cases)."
  },
  {
   "property": "C118",
   "status": "proved",
   "theorems": [
    "Verif.Windows.C118_fade",
    "Verif.Windows.C118_functions",
    "Verif.Windows.C118_window"
   ],
   "note": "Exact real numbers. The Bessel function of the Kaiser window is a parameter, which is assumed to be positive at zero and not to fall for positive arguments. The decay of the exponential window must not be negative. The flat top windows (their samples become negative), the Dolph-Chebyshev window (its last samples can be peaks) and the Slepian window are not included."
  },
  {
   "property": "C119",
   "status": "partial",
   "theorems": [
    "Verif.Filter.C119_butterworth",
    "Verif.Filter.C119_complementary",
    "Verif.Filter.C119_transition_violated",
    "Verif.Filter.C119_type1",
    "Verif.Filter.C119_type2"
   ],
   "note": "The competing filters are described by their squared magnitude, which is the inverse of a polynomial of the squared frequency (or a ratio with such a polynomial); every filter with the inverse of a polynomial of the order n as transfer function has such a magnitude. The Butterworth filter is not the monotonic filter with the fastest transition, as the documentation says; a better one of the order 3 is given by C119_transition_violated."
  },
  {
   "property": "C120",
   "status": "partial",
   "theorems": [
    "Verif.Stft.C120_bounded",
    "Verif.Stft.C120_energy",
    "Verif.Stft.C120_gain",
    "Verif.Stft.C120_shift_partial",
    "Verif.Stft.C120_shift_violated",
    "Verif.Stft.C120_sum",
    "Verif.Stft.C120_tone",
    "Verif.Stft.C120_tone_default"
   ],
   "note": "Exact arithmetic; the function of scipy is modelled by what it computes. The time invariance does not hold for shifts by odd numbers of steps, if the offset of the signal is in the middle between two multiples of the step size: the offset is rounded to even integers (C120_shift_violated), so that theorem is partial. The calibration for tones requires, that the transform of the window is zero at the doubled frequency of the tone."
  },
  {
   "property": "C121",
   "status": "proved",
   "theorems": [
    "Verif.Interpolation.C121_bands",
    "Verif.Interpolation.C121_between",
    "Verif.Interpolation.C121_inverse",
    "Verif.Interpolation.C121_linear",
    "Verif.Interpolation.C121_log_between",
    "Verif.Interpolation.C121_log_monotone",
    "Verif.Interpolation.C121_monotone",
    "Verif.Interpolation.C121_product",
    "Verif.Interpolation.C121_slope"
   ],
   "note": "Exact arithmetic. The x values of the supporting points are sorted, as they are in all uses of the interpolation functions. The logarithmic interpolations are considered for positive real values."
  },
  {
   "property": "C122",
   "status": "partial",
   "theorems": [
    "Verif.Concatenate.C122_concatenate",
    "Verif.Concatenate.C122_concatenate_gain",
    "Verif.Merge.C122_merge_fourier",
    "Verif.Merge.C122_merge_gain",
    "Verif.Merge.C122_merge_offset_violated",
    "Verif.Merge.C122_merge_signals",
    "Verif.Merge.C122_merge_spectrograms",
    "Verif.Merge.C122_merge_spectrums"
   ],
   "note": "Exact arithmetic. Operations, that do not keep zeros, do not commute with merging signals with different time ranges, because the gaps are filled with zeros (C122_merge_offset_violated); the positive theorems cover all operations, that keep zeros."
  },
  {
   "property": "C123",
   "status": "proved",
   "theorems": [
    "Verif.Filter.C123_bessel",
    "Verif.Filter.C123_butterworth",
    "Verif.Filter.C123_chebyshev1",
    "Verif.Filter.C123_chebyshev2",
    "Verif.Filter.C123_weighting"
   ],
   "note": "Exact arithmetic. The slope is the limit of the difference between the levels at ten times the frequency and at the frequency."
  },
  {
   "property": "C124",
   "status": "partial",
   "theorems": [
    "Verif.Jack.Session.C124_add",
    "Verif.Jack.Session.C124_callbacks",
    "Verif.Jack.Session.C124_idle",
    "Verif.Jack.Session.C124_input_partial",
    "Verif.Jack.Session.C124_names_violated",
    "Verif.Jack.Session.C124_new",
    "Verif.Jack.Session.C124_recording_partial",
    "Verif.Jack.Session.C124_remove",
    "Verif.Jack.Session.C124_remove_violated",
    "Verif.Jack.Session.C124_shutdown",
    "Verif.Jack.Session.C124_wait",
    "Verif.Jack.Session.C124_xrun"
   ],
   "note": "The JACK server and its python bindings are modelled by their documented behaviour, the callbacks are executed one after the other. C124_recording_partial inherits the demand on the blocks from C25. Violations: removing a port after a recording does not remove its channel from the recording, but shifts the labels (C124_remove_violated); a channel label, that is the name of an input port, leads to a JackError without output ports (C124_names_violated)."
  },
  {
   "property": "C125",
   "status": "proved",
   "theorems": [
    "Verif.Harmonic.C125_channels",
    "Verif.Harmonic.C125_linear"
   ],
   "note": "Exact arithmetic. The impulse responses have the same sampling rate, offset and shape."
  },
  {
   "property": "C126",
   "status": "partial",
   "theorems": [
    "Verif.Describe.C126_filter",
    "Verif.Describe.C126_fixed",
    "Verif.Describe.C126_parenthesis_violated",
    "Verif.Describe.C126_signal",
    "Verif.Describe.C126_spectrogram",
    "Verif.Describe.C126_spectrum",
    "Verif.Describe.C126_texts",
    "Verif.Describe.C126_xrun"
   ],
   "note": "Exact rational numbers instead of floats; the address is printed in hexadecimal. Violation: the description of spectrograms does not close the parenthesis (C126_parenthesis_violated)."
  },
  {
   "property": "C127",
   "status": "partial",
   "theorems": [
    "Verif.Filter.C127_filters",
    "Verif.Filter.C127_hermitian",
    "Verif.Filter.C127_operators",
    "Verif.Filter.C127_weighting_partial",
    "Verif.Filter.C127_weighting_violated",
    "Verif.Filter.C127_zero_hertz"
   ],
   "note": "Exact complex numbers; terms with bands are not covered, because they are not functions of the complex frequency. The weighting filters are normalized with the complex value at 1000 Hz instead of its magnitude, so they are symmetric up to a constant phase only (C127_weighting_partial); the C-weighting is not symmetric and the U-weighting has a complex value at 0 Hz (C127_weighting_violated)."
  },
  {
   "property": "C128",
   "status": "proved",
   "theorems": [
    "Verif.Filter.C128_bessel",
    "Verif.Filter.C128_bessel_magnitude",
    "Verif.Filter.C128_butterworth",
    "Verif.Filter.C128_chebyshev1",
    "Verif.Filter.C128_chebyshev2",
    "Verif.Filter.C128_cutoff",
    "Verif.Filter.C128_jump",
    "Verif.Filter.C128_ripple"
   ],
   "note": "Exact arithmetic; the limits are limits of the exact values at each frequency, they are not uniform in the frequency."
  },
  {
   "property": "C129",
   "status": "partial",
   "theorems": [
    "Verif.Filter.C129_inverse",
    "Verif.Filter.C129_linear_magnitude_violated",
    "Verif.Filter.C129_logarithmic_sum_violated",
    "Verif.Filter.C129_magnitude",
    "Verif.Filter.C129_negate",
    "Verif.Filter.C129_phase_violated",
    "Verif.Filter.C129_points",
    "Verif.Filter.C129_product",
    "Verif.Filter.C129_quotient",
    "Verif.Filter.C129_single",
    "Verif.Filter.C129_sum"
   ],
   "note": "Exact complex numbers. Violations (further ones in C31): sums with logarithmic interpolations (C129_logarithmic_sum_violated), products with logarithmic interpolations, if the phases leave their range (C129_phase_violated), magnitudes with linear interpolation (C129_linear_magnitude_violated)."
  },
  {
   "property": "C130",
   "status": "proved",
   "theorems": [
    "Verif.Fade.C130_applied",
    "Verif.Fade.C130_crossfade",
    "Verif.Fade.C130_crossfade_bartlett",
    "Verif.Fade.C130_product",
    "Verif.Fade.C130_reversed",
    "Verif.Fade.C130_sum",
    "Verif.Fade.C130_window"
   ],
   "note": "Exact arithmetic in a commutative semiring. The theorems about pairs of intervals take the intervals as pairs of sample indices; other forms of the parameters are covered by C27. None of numpy's window functions needs to have halves, that add up to one: for the triangular function the sum is less than one (C130_crossfade_bartlett)."
  },
  {
   "property": "C131",
   "status": "partial",
   "theorems": [
    "Verif.Jack.C131_convolution_partial",
    "Verif.Jack.C131_loopback_partial",
    "Verif.Jack.C131_loopback_violated",
    "Verif.Jack.C131_realizable",
    "Verif.Jack.C131_response_partial"
   ],
   "note": "The systems are described by their impulse responses; the server delivers the response to the stream of the output buffers in the input buffers. Violation: if a block contains the end of the signal and samples before it, the recording is wrong (C131_loopback_violated), because the index is set to a number of samples instead of a position (see C25)."
  },
  {
   "property": "C132",
   "status": "partial",
   "theorems": [
    "Verif.Deconvolution.C132_convolution_partial",
    "Verif.Deconvolution.C132_measurement_partial",
    "Verif.Deconvolution.C132_odd_violated",
    "Verif.Deconvolution.C132_periodic_partial",
    "Verif.Deconvolution.C132_transient_partial"
   ],
   "note": "Exact arithmetic. Violation: for odd numbers of samples, the result has one sample less than the excitation and another sampling rate (C132_odd_violated; see C52)."
  },
  {
   "property": "C133",
   "status": "proved",
   "theorems": [
    "Verif.Correlation.C133_autocorrelation",
    "Verif.Correlation.C133_bound",
    "Verif.Correlation.C133_delay",
    "Verif.Correlation.C133_power",
    "Verif.Correlation.C133_shift",
    "Verif.Correlation.C133_transform"
   ],
   "note": "Exact arithmetic of real numbers; the mode FULL (for the other modes see C20 and C21)."
  },
  {
   "property": "C134",
   "status": "proved",
   "theorems": [
    "Verif.Filter.C134_band",
    "Verif.Filter.C134_concave",
    "Verif.Filter.C134_order",
    "Verif.Filter.C134_symmetric",
    "Verif.Filter.C134_unimodal"
   ],
   "note": "Exact arithmetic; the frequency response at positive frequencies."
  },
  {
   "property": "C135",
   "status": "proved",
   "theorems": [
    "Verif.Fourier.C135_conjugate",
    "Verif.Fourier.C135_product",
    "Verif.Fourier.C135_resampling",
    "Verif.Fourier.C135_sum",
    "Verif.Fourier.C135_upsampling",
    "Verif.Fourier.C135_values"
   ],
   "note": "Exact arithmetic. The condition for the products is necessary, because the inverse Fourier transform discards the imaginary parts of the first and the last bin (product_condition)."
  },
  {
   "property": "C136",
   "status": "proved",
   "theorems": [
    "Verif.FilterApply.C136_bessel",
    "Verif.FilterApply.C136_bound",
    "Verif.FilterApply.C136_butterworth",
    "Verif.FilterApply.C136_chebyshev1",
    "Verif.FilterApply.C136_chebyshev2",
    "Verif.FilterApply.C136_imaginary",
    "Verif.FilterApply.C136_lower"
   ],
   "note": "Exact arithmetic. Odd numbers of samples are excluded, because the filtered signal has another length then (C93_odd_violated). The condition for the lower bound is necessary (C136_imaginary)."
  },
  {
   "property": "C137",
   "status": "proved",
   "theorems": [
    "Verif.Filter.C137_between",
    "Verif.Filter.C137_level",
    "Verif.Filter.C137_maximum",
    "Verif.Filter.C137_table"
   ],
   "note": "Exact arithmetic. The tabulated values are computed with rational intervals, that are checked by the kernel; the statement about the frequencies in between follows from the concavity of the curves (C134) and is not made for the D- and the U-weighting, whose curves are not concave."
  },
  {
   "property": "C138",
   "status": "proved",
   "theorems": [
    "Verif.FilterApply.C138_delay",
    "Verif.FilterApply.C138_derivative",
    "Verif.FilterApply.C138_unique"
   ],
   "note": "Exact arithmetic. The polynomial is identified by its values at the samples only (C138_unique), so the statement does not refer to the Fourier transform of the model. The filtered signal starts at time 0, because the offset is removed by the inverse Fourier transform."
  },
  {
   "property": "C139",
   "status": "proved",
   "theorems": [
    "Verif.Filter.C139_bessel",
    "Verif.Filter.C139_butterworth",
    "Verif.Filter.C139_chebyshev1",
    "Verif.Filter.C139_chebyshev2",
    "Verif.Filter.C139_unique"
   ],
   "note": "Exact arithmetic. The unwrapped phase is determined by continuity and by its limit in the pass band (C139_unique). Chebyshev filters of type 1 with a ripple of 0 are Butterworth filters (C62)."
  },
  {
   "property": "C140",
   "status": "proved",
   "theorems": [
    "Verif.Filter.C140_even",
    "Verif.Filter.C140_first_order",
    "Verif.Filter.C140_linkwitz_riley",
    "Verif.Filter.C140_odd",
    "Verif.Filter.C140_power"
   ],
   "note": "Proved for real frequencies and exact arithmetic. The frequency zero is excluded, because the highpass filter divides by it."
  },
  {
   "property": "C141",
   "status": "partial",
   "theorems": [
    "Verif.C141_channels",
    "Verif.C141_filter",
    "Verif.C141_filter_without_step",
    "Verif.C141_float_step_violated",
    "Verif.C141_frequency_violated",
    "Verif.C141_signal",
    "Verif.C141_signal_without_step",
    "Verif.C141_spectrogram",
    "Verif.C141_spectrogram_without_step",
    "Verif.C141_spectrum",
    "Verif.C141_spectrum_without_step",
    "Verif.C141_surplus",
    "Verif.C141_time_partial",
    "Verif.C141_time_violated",
    "Verif.C141_tuple_violated",
    "Verif.C141_zero",
    "Verif.StepSlice.C141_indices"
   ],
   "note": "The selection of elements and labels is proved for all integer steps. Violated: with a step other than one, the samples move to other times and frequencies, because the sampling rate, the offset and the resolution are not adapted (the tests expect the unchanged offset); negative float steps lose their sign; tuples with one key raise an IndexError for signals and tuples of keys raise a TypeError for filters."
  },
  {
   "property": "C142",
   "status": "proved",
   "theorems": [
    "Verif.Convolution.C142_centre",
    "Verif.Convolution.C142_energy",
    "Verif.Convolution.C142_moments",
    "Verif.Convolution.C142_peak",
    "Verif.Convolution.C142_peak_sharp",
    "Verif.Convolution.C142_weighted"
   ],
   "note": "Proved for real samples in exact arithmetic and for the full convolution (mode FULL); C17 relates the other modes to it."
  },
  {
   "property": "C143",
   "status": "proved",
   "theorems": [
    "Verif.Statistics.C143_constant",
    "Verif.Statistics.C143_mls",
    "Verif.Statistics.C143_sine",
    "Verif.Statistics.C143_square"
   ],
   "note": "Exact arithmetic. The sine wave must not have periods of 1, 2, 3 or 4 samples or quotients of these (its powers would alias). At its jumps, the square wave is zero; the theorem states the parameters also for this case."
  },
  {
   "property": "C144",
   "status": "proved",
   "theorems": [
    "Verif.Filter.Arrays.C144_again",
    "Verif.Filter.Arrays.C144_call",
    "Verif.Filter.Arrays.C144_new",
    "Verif.Filter.Arrays.C144_out",
    "Verif.Filter.Arrays.C144_samples",
    "Verif.Filter.Arrays.C144_spectrum"
   ],
   "note": "The arrays have addresses in a memory; the data types of the arrays are not modelled. What the value at 0 Hz is, if the lowpass-to-highpass transform is used, is the subject of C33 and C60."
  },
  {
   "property": "C145",
   "status": "partial",
   "theorems": [
    "Verif.Double.C145_bin",
    "Verif.Double.C145_index",
    "Verif.Double.C145_key",
    "Verif.Double.C145_level_violated",
    "Verif.Double.C145_offset_violated",
    "Verif.Double.C145_rate_violated",
    "Verif.Double.C145_resolution",
    "Verif.Double.C145_stft",
    "Verif.Double.C145_table_partial",
    "Verif.Double.C145_time",
    "Verif.Double.C145_window_partial",
    "Verif.Double.C145_window_violated"
   ],
   "note": "Rounding to nearest with 53 bits, unlimited exponents. Violated by the window of level_vs_time (7/48000 seconds at 48 kHz give a window of nine samples instead of seven, so that the level of a constant signal is 1.13 times too high) and for signals with large offsets, whose offset is not restored from a table; the sampling rate is not restored exactly."
  },
  {
   "property": "C146",
   "status": "proved",
   "theorems": [
    "Verif.Memory.C146_new",
    "Verif.Memory.C146_program",
    "Verif.Memory.C146_views",
    "Verif.Memory.C146_write_new",
    "Verif.Memory.C146_write_view"
   ],
   "note": "Arrays are views (buffer, start, shape, strides) of numbered buffers. The theorem about programs relates the execution with such arrays to the value semantics of the other files, so that their theorems hold for arrays in memory, too. Overwriting the samples of a slice or of a reversed signal also overwrites those of the original signal, which is stated by C146_write_view."
  },
  {
   "property": "C147",
   "status": "proved",
   "theorems": [
    "Verif.Double.C147_commutative",
    "Verif.Double.C147_convolution",
    "Verif.Double.C147_convolution_exact",
    "Verif.Double.C147_difference",
    "Verif.Double.C147_energy",
    "Verif.Double.C147_energy_exact",
    "Verif.Double.C147_frequencies",
    "Verif.Double.C147_mean",
    "Verif.Double.C147_times",
    "Verif.Double.C147_variance"
   ],
   "note": "Rounding to nearest with 53 bits, unlimited exponents (neither overflows nor denormalised numbers). The order of the additions in sums is a parameter, because numpy does not specify it. numpy.linspace is modelled statement by statement. The standard deviation is not modelled with rounding errors, because of the square root."
  },
  {
   "property": "C148",
   "status": "partial",
   "theorems": [
    "Verif.Jack.Threads.C148_active_partial",
    "Verif.Jack.Threads.C148_bounded_partial",
    "Verif.Jack.Threads.C148_finished",
    "Verif.Jack.Threads.C148_lost_start_violated",
    "Verif.Jack.Threads.C148_no_deadlock_partial",
    "Verif.Jack.Threads.C148_no_exception",
    "Verif.Jack.Threads.C148_restart_violated",
    "Verif.Jack.Threads.C148_results_partial",
    "Verif.Jack.Threads.C148_samples_partial",
    "Verif.Jack.Threads.C148_shutdown_violated",
    "Verif.Jack.Threads.C148_unchanged_partial"
   ],
   "note": "Two threads, interleaved at single accesses to attributes and rows of arrays. Violated, if start is called during a recording (the callback overwrites the index, that start has reset, so that the first samples of the recording are never written), if a client, that deactivates itself, calls start, input and start (the client is deactivated after the second start and output waits forever), and if the JACK server is shut down (output returns an array, that is still being written)."
  },
  {
   "property": "C149",
   "status": "partial",
   "theorems": [
    "Verif.DataTypes.C149_abs",
    "Verif.DataTypes.C149_allocate_partial",
    "Verif.DataTypes.C149_allocate_violated",
    "Verif.DataTypes.C149_boolean_violated",
    "Verif.DataTypes.C149_doubles",
    "Verif.DataTypes.C149_imaginary_violated",
    "Verif.DataTypes.C149_negative_partial",
    "Verif.DataTypes.C149_negative_violated",
    "Verif.DataTypes.C149_operations",
    "Verif.DataTypes.C149_operators_float",
    "Verif.DataTypes.C149_operators_partial",
    "Verif.DataTypes.C149_overflow_violated",
    "Verif.DataTypes.C149_overlap_violated",
    "Verif.DataTypes.C149_real_overlap_violated",
    "Verif.DataTypes.C149_signals_partial",
    "Verif.DataTypes.C149_small_violated",
    "Verif.DataTypes.C149_spectrograms_partial",
    "Verif.DataTypes.C149_truncated_violated"
   ],
   "note": "Data types consist of a kind and a size; the numbers are exact, but integers wrap around. Violated by allocate_array for elements, whose size is not a multiple of 8 bytes (float32, int16), by the concatenation, whose result has the data type of the data set, which starts first (samples are truncated to integers, imaginary parts are lost, overlapping data sets raise a TypeError), and by the operators of signals with integers, which wrap around before the result is stored as doubles. Complex valued signals, divisions and powers are not modelled."
  },
  {
   "property": "C150",
   "status": "partial",
   "theorems": [
    "Verif.Caching.C150_blocks",
    "Verif.Caching.C150_concatenate",
    "Verif.Caching.C150_input_ports",
    "Verif.Caching.C150_jack_partial",
    "Verif.Caching.C150_kept",
    "Verif.Caching.C150_labels_violated",
    "Verif.Caching.C150_merge",
    "Verif.Caching.C150_new",
    "Verif.Caching.C150_offset_violated",
    "Verif.Caching.C150_once",
    "Verif.Caching.C150_rate_violated",
    "Verif.Caching.C150_replies"
   ],
   "note": "The storing of the results is done by the package connectors, which is not part of the repository; its documented behaviour is assumed. Proved without restrictions for Merge, Concatenate and Jack.input_ports. Violated by Jack.output, which is only declared as outdated by start: after another signal has been set, an input port has been removed or the sampling rate has changed, the offset, the labels and the sampling rate of the output signal depend on whether output has been called before."
  },
  {
   "property": "C151",
   "status": "partial",
   "theorems": [
    "Verif.Numbers.C151_equivalence_partial",
    "Verif.Numbers.C151_exact",
    "Verif.Numbers.C151_hash_partial",
    "Verif.Numbers.C151_hash_violated",
    "Verif.Numbers.C151_nan_hash_violated",
    "Verif.Numbers.C151_symmetric",
    "Verif.Numbers.C151_transitive_violated",
    "Verif.Numbers.C151_values_partial"
   ],
   "note": "Documented behaviour of the comparison in numpy and of the hashes in python is assumed. Violated for integers above 2**53, which are rounded, when they are compared with floating point numbers (the equality is not transitive, equal signals have different hashes), and for NaN, whose hash is different each time."
  },
  {
   "property": "C152",
   "status": "partial",
   "theorems": [
    "Verif.Mls.C152_measurement_partial",
    "Verif.Mls.C152_spectrum_violated"
   ],
   "note": "Combines the models of the sequence (C53, C110), of the convolution in the mode FULL (C17) and of the correlation in the mode VALID (C20) with exact real numbers. Violated by the correlation in the mode SPECTRUM, whose cyclic period is always even, while the period of a maximum length sequence is odd."
  },
  {
   "property": "C153",
   "status": "partial",
   "theorems": [
    "Verif.Empty.C153_convolution_partial",
    "Verif.Empty.C153_correlation_violated",
    "Verif.Empty.C153_fourier",
    "Verif.Empty.C153_fourier_violated",
    "Verif.Empty.C153_pad",
    "Verif.Empty.C153_parity_violated",
    "Verif.Empty.C153_rate_violated",
    "Verif.Empty.C153_sum_partial",
    "Verif.Empty.C153_sum_violated",
    "Verif.Empty.C153_time_domain_violated"
   ],
   "note": "Uses the models of padding, Fourier transform, sums, convolution and correlation. Violated: the modes FULL, SAME and VALID raise a ValueError; the correlation with a signal without samples raises a ValueError in the default mode and, depending on the parity of the length of the other signal, in the mode SPECTRUM; the spectrum of a signal without samples transforms back to one sample; the default spectrum transforms back to a signal with the sampling rate zero; the sum with the default signal is padded up to the time zero. The short time Fourier transform and the level of signals without samples are not modelled."
  },
  {
   "property": "C154",
   "status": "proved",
   "theorems": [
    "Verif.Stft.C154_default",
    "Verif.Stft.C154_least_squares",
    "Verif.Stft.C154_linear",
    "Verif.Stft.C154_projection",
    "Verif.Stft.C154_pythagoras",
    "Verif.Stft.C154_threshold"
   ],
   "note": "Exact arithmetic; even and odd window lengths from two samples on. The result has to be at least as long as the window, otherwise it can not be transformed. C154_threshold shows, that the condition about the threshold of scipy.signal.istft is needed: without padding, samples at the borders, where the window is almost zero, are not restored."
  },
  {
   "property": "C155",
   "status": "proved",
   "theorems": [
    "Verif.Locality.C155_causal",
    "Verif.Locality.C155_convolution",
    "Verif.Locality.C155_correlation",
    "Verif.Locality.C155_energy",
    "Verif.Locality.C155_istft",
    "Verif.Locality.C155_level",
    "Verif.Locality.C155_stft"
   ],
   "note": "Statements about two runs of the same function. The energy decay curve is treated for samples of any type with any addition and multiplication (including rounded ones), convolutions and correlations for exact arithmetic in any commutative semiring (correlations: any semiring), levels and transforms for real numbers. The uninitialised memory may differ between the two runs, except for the buffer of the correction in level_vs_time (see C54). The modes in the frequency domain are not included, because each of their samples depends on all samples."
  },
  {
   "property": "C156",
   "status": "proved",
   "theorems": [
    "Verif.Memory.C156_new",
    "Verif.Memory.C156_program",
    "Verif.Memory.C156_views",
    "Verif.Memory.C156_write_new",
    "Verif.Memory.C156_write_view"
   ],
   "note": "The model of the memory is that of C146: buffers with numbered elements, views with strides, and element-wise functions, that read their operands before they write (numpy makes temporary copies, if they overlap with the output). Simplification: absolute values have the same type of samples as the spectrum; the transforms and filters, that always create new arrays, are not statements of the programs."
  },
  {
   "property": "C157",
   "status": "proved",
   "theorems": [
    "Verif.TimeShift.C157_algebra",
    "Verif.TimeShift.C157_concatenate",
    "Verif.TimeShift.C157_convolve",
    "Verif.TimeShift.C157_convolve_spectrum",
    "Verif.TimeShift.C157_level",
    "Verif.TimeShift.C157_merge",
    "Verif.TimeShift.C157_program",
    "Verif.TimeShift.C157_reversed",
    "Verif.TimeShift.C157_single"
   ],
   "note": "The results are equal, not only in their values at the points in time: the theorems are equations between the functions of the model, including exceptions and uninitialised memory. The programs are those of C146. Reversing, shift(None), which moves a signal to the absolute time 0, and concatenating are excluded from the programs and have their own statements (shift(None) has none). The short time Fourier transform is treated in C120."
  },
  {
   "property": "C158",
   "status": "proved",
   "theorems": [
    "Verif.Filter.C158_bessel",
    "Verif.Filter.C158_butterworth",
    "Verif.Filter.C158_chebyshev1",
    "Verif.Filter.C158_chebyshev2",
    "Verif.Filter.C158_delay",
    "Verif.Filter.C158_derivative",
    "Verif.Units.C158_exponential",
    "Verif.Units.C158_fourier",
    "Verif.Units.C158_inverse_exponential",
    "Verif.Units.C158_inverse_fourier",
    "Verif.Units.C158_inverse_linear",
    "Verif.Units.C158_inverse_stft",
    "Verif.Units.C158_level",
    "Verif.Units.C158_linear",
    "Verif.Units.C158_reverberation",
    "Verif.Units.C158_sine",
    "Verif.Units.C158_square",
    "Verif.Units.C158_stft"
   ],
   "note": "Equations between the functions of the model with real numbers instead of floats; for floats, they hold up to rounding errors (and exactly for powers of two without overflows). The short time Fourier transforms are those after the call of get_window, which uses the sampling rate only for the signal of the window. The responses of the filters are considered for frequencies, that are not negative, the order is positive, and the ripple of the Chebyshev filter of type 2 is not zero."
  },
  {
   "property": "C159",
   "status": "proved",
   "theorems": [
    "Verif.Pieces.C159_exponential",
    "Verif.Pieces.C159_exponential_length",
    "Verif.Pieces.C159_linear",
    "Verif.Pieces.C159_linear_length",
    "Verif.Pieces.C159_sine",
    "Verif.Pieces.C159_square"
   ],
   "note": "Real numbers are used instead of floats. The phase at the beginning of a part of a sweep is given implicitly (the theorems say, that there is one), except for parts, that start at the beginning of the interval. The frequencies of exponential sweeps have to be positive and different from each other; otherwise the code raises an exception."
  },
  {
   "property": "C160",
   "status": "proved",
   "theorems": [
    "Verif.Statistics.C160_level",
    "Verif.Statistics.C160_parts"
   ],
   "note": "Real numbers are used instead of floats. The slices are given by integers."
  },
  {
   "property": "C161",
   "status": "partial",
   "theorems": [
    "Verif.Level.C161_level",
    "Verif.Signal.C161_convolution",
    "Verif.Signal.C161_correlation",
    "Verif.Signal.C161_functions",
    "Verif.Signal.C161_operators_partial",
    "Verif.Signal.C161_operators_violated",
    "Verif.Signal.C161_rotation",
    "Verif.Signal.C161_slice"
   ],
   "note": "Violated for operators with signals over different periods of time, because the offset of a reversed signal depends on its length (see C09); proved for signals over the same period of time. The offset of a slice of a reversed signal is later than that of the reversed slice by twice the number of the samples, that have been cut off; this is stated in the theorem, like the distance of the offsets of the correlations. The convolution and the correlation are those with the mode full. Rotations by more than the length are excluded (see C08). Real numbers are used for the level over time."
  },
  {
   "property": "C162",
   "status": "proved",
   "theorems": [
    "Verif.Spectrum.C162_abs",
    "Verif.Spectrum.C162_conjugate",
    "Verif.Spectrum.C162_operators",
    "Verif.Spectrum.C162_triangle"
   ],
   "note": "Real and complex numbers are used instead of floats. Spectrums with different numbers of bins are excluded (see C15). The quotient by zero is zero, as in Mathlib, instead of inf or nan."
  }
 ]
}
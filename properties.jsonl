{"id": "C01", "title": "One label per channel", "statement": "Every data container has exactly one label per channel, no matter how many labels were passed: labels() has as many entries as there are channels, the i-th given label is kept for every existing channel, missing labels are filled with empty strings, surplus labels are dropped.", "quantifier": "all label sequences (including None) and all numbers of channels", "why_tests_cant": "label lists and channel counts are unbounded; tests fix a few combinations", "anchors": ["sumpf/_internal/_functions.py: sanitize_labels", "sumpf/_data/_sampled_data.py: SampledData.__init__"]}
{"id": "C02", "title": "Normalisation of integer, float and negative indices", "statement": "An index given to the API as an integer or as a relative float is normalised to a non-negative sample position that is congruent to the given position modulo the length; non-negative integers stay unchanged; a float selects the sample position nearest to fraction*length. The normalisation terminates for every index and every length.", "quantifier": "all integer indices, all rational fractions and all lengths", "why_tests_cant": "termination for every index, including empty data, cannot be sampled", "anchors": ["sumpf/_internal/_indexing.py: index"]}
{"id": "C03", "title": "Slicing keys select the documented rows and samples", "statement": "Indexing a data set with an integer selects exactly the channel (or sample) a Python sequence would select, including negative integers, and keeps the dimension; slices behave like Python slices, with float limits interpreted relative to the axis' length.", "quantifier": "all integer keys, all slices with arbitrary bounds and all axis lengths", "why_tests_cant": "the key space is infinite and the off-by-one cases sit at its corners", "anchors": ["sumpf/_internal/_indexing.py: key_to_slices", "sumpf/_data/_signals/_signal.py: Signal.__getitem__", "sumpf/_data/_spectrums/_spectrum.py: Spectrum.__getitem__"]}
{"id": "C04", "title": "Slicing a signal keeps every sample at its point in time", "statement": "signal[channels, a:b] has an offset such that every remaining sample is located at the same time index as in the original signal.", "quantifier": "all signals, all start and stop values of the time slice (positive, negative, missing, out of range)", "why_tests_cant": "time alignment must hold for every offset/length/start combination", "anchors": ["sumpf/_data/_signals/_signal.py: Signal.__getitem__", "sumpf/_internal/_indexing.py: key_to_slices"]}
{"id": "C05", "title": "Padding and cropping", "statement": "pad(length, value) returns a signal/spectrum/spectrogram with exactly the requested length whose common samples are unchanged and whose additional samples are the given value; it never exposes uninitialised memory; padding to the present length changes nothing; offset, sampling rate and labels are kept.", "quantifier": "all shapes, lengths, values and all contents of freshly allocated memory", "why_tests_cant": "absence of uninitialised samples cannot be shown by running the code", "anchors": ["sumpf/_data/_signals/_signal.py: Signal.pad", "sumpf/_data/_spectrums/_spectrum.py: Spectrum.pad", "sumpf/_data/_spectrograms/_spectrogram.py: Spectrogram.pad"]}
{"id": "C06", "title": "Shifting in the modes OFFSET and CROP", "statement": "shift(n, OFFSET) moves every sample by n sample periods by changing only the offset, shifts compose additively and shift(None) removes the offset; shift(n, CROP) keeps shape and offset, moves sample i to i+n, drops what leaves the signal and fills the rest with zeros.", "quantifier": "all signals and all integer shifts, including shifts larger than the signal", "why_tests_cant": "all shift/length combinations, including |n| >= length", "anchors": ["sumpf/_data/_signals/_signal.py: Signal.shift", "sumpf/_internal/_enums.py: ShiftMode"]}
{"id": "C07", "title": "Shifting in the mode PAD", "statement": "shift(n, PAD) shifts the samples like the mode CROP does, but extends the channels by |n| samples, so that no sample is lost; the offset is kept.", "quantifier": "all signals and all integer shifts of either sign", "why_tests_cant": "both signs and all lengths are quantified over", "anchors": ["sumpf/_data/_signals/_signal.py: Signal.shift", "sumpf/_data/_spectrograms/_spectrogram.py: Spectrogram.shift", "sumpf/_internal/_enums.py: ShiftMode"]}
{"id": "C08", "title": "Shifting in the mode CYCLE", "statement": "shift(n, CYCLE) is the cyclic rotation by n: sample i moves to (i+n) mod length; it keeps shape and offset, loses no sample and shift(-n) undoes it.", "quantifier": "all signals and all integer shifts, including |n| > length", "why_tests_cant": "shifts are unbounded; the wrap-around depends on n mod length", "anchors": ["sumpf/_data/_signals/_signal.py: Signal.shift", "sumpf/_data/_spectrograms/_spectrogram.py: Spectrogram.shift"]}
{"id": "C09", "title": "Reversing a signal", "statement": "reversed(reversed(signal)) equals signal, and reversed(signal) equals the original signal at the negated time: the sample at time index t of the result is the sample at time index -t of the original.", "quantifier": "all signals with all offsets", "why_tests_cant": "must hold for every offset/length pair", "anchors": ["sumpf/_data/_signals/_signal.py: Signal.__reversed__"]}
{"id": "C10", "title": "Signal arithmetic is computed pointwise in time", "statement": "For a binary operator applied to two signals, the result covers exactly the hull of both time ranges; at times where both signals have samples it is the operator applied to both samples; where only the first has samples it is that sample; where only the second one has samples it is that sample (add, mul, mod, pow) or the operator applied to 0 or 1 and that sample (sub, div); in a gap between the signals it is zero. One-channel signals are broadcast to all channels of the other signal. No uninitialised memory is exposed.", "quantifier": "all pairs of signals with arbitrary offsets, lengths and channel counts, arbitrary binary operators and arbitrary contents of uninitialised memory", "why_tests_cant": "the implementation has a branch for every relative placement of the signals; tests sample a few placements", "anchors": ["sumpf/_data/_signals/_signal.py: Signal._algebra_function", "sumpf/_data/_sampled_data.py: SampledData.__add__"]}
{"id": "C11", "title": "Laws of signal addition and subtraction", "statement": "Adding signals is commutative and associative, regardless of their offsets, lengths and gaps between them; a - b equals a + (-b); the empty-overlap cases are included.", "quantifier": "all triples of signals with the same number of channels over an arbitrary commutative additive group of samples", "why_tests_cant": "algebraic laws over all placements of three signals", "anchors": ["sumpf/_data/_signals/_signal.py: Signal._algebra_function", "sumpf/_data/_signals/_signal.py: Signal.__neg__"]}
{"id": "C12", "title": "Laws of signal multiplication", "statement": "Multiplying signals is commutative and associative, where samples that exist in only one signal are copied.", "quantifier": "all triples of signals with arbitrary time ranges", "why_tests_cant": "associativity depends on the relative position of three time ranges", "anchors": ["sumpf/_data/_signals/_signal.py: Signal._algebra_function", "sumpf/_data/_sampled_data.py: SampledData.__mul__"]}
{"id": "C13", "title": "Equality and hashing of data containers", "statement": "== is an equivalence relation on signals (spectrums, spectrograms) that holds exactly if all samples and all parameters are equal, and equal data containers have equal hashes.", "quantifier": "all pairs and triples of data containers", "why_tests_cant": "equivalence relations quantify over all triples", "anchors": ["sumpf/_data/_sampled_data.py: SampledData.__eq__, SampledData.__hash__", "sumpf/_data/_signals/_signal.py: Signal.__eq__, Signal.__hash__", "sumpf/_data/_spectrums/_spectrum.py: Spectrum.__eq__"]}
{"id": "C14", "title": "Arithmetic of signals with numbers and arrays", "statement": "An arithmetic operator between a signal and a number or array of compatible shape is applied to each sample, with the operands in the order in which they have been written; offset, sampling rate and labels of the signal are kept.", "quantifier": "all signals, all numbers, all arrays, both operand orders", "why_tests_cant": "operand order errors are invisible for commutative examples", "anchors": ["sumpf/_data/_signals/_signal.py: Signal._algebra_function_right", "sumpf/_data/_signals/_signal.py: Signal._algebra_function"]}
{"id": "C15", "title": "Spectrum arithmetic", "statement": "A binary operator on two spectrums is applied bin by bin; where only one spectrum has bins, its values are copied (or combined with the pivot 0 or 1 for subtraction and division); one-channel spectrums are broadcast; no uninitialised memory is exposed.", "quantifier": "all pairs of spectrums that the implementation accepts, arbitrary operators, arbitrary uninitialised memory", "why_tests_cant": "unbounded shapes and contents of uninitialised memory", "anchors": ["sumpf/_data/_spectrums/_spectrum.py: Spectrum._algebra_function"]}
{"id": "C16", "title": "Spectrogram arithmetic", "statement": "A binary operator on two spectrograms is applied pointwise on the hull of both time ranges and the larger of the two frequency ranges with the same rule for points that are covered by none, one or both of the spectrograms as for signals; no uninitialised memory is exposed.", "quantifier": "all pairs of spectrograms with arbitrary offsets, lengths, numbers of bins", "why_tests_cant": "two-dimensional placement cases multiply the number of branches", "anchors": ["sumpf/_data/_spectrograms/_spectrogram.py: Spectrogram._algebra_function"]}
{"id": "C17", "title": "Full convolution and its offset", "statement": "convolve(other, FULL) returns the linear convolution of the signals as functions of time: the sample at time index t is the sum of a(u)*b(t-u) over all u, including the effect of both offsets; outside of the result's time range this sum is zero. Consequently it is commutative.", "quantifier": "all pairs of non-empty signals over an arbitrary commutative ring, all offsets", "why_tests_cant": "offset bookkeeping must be right for all length/offset combinations", "anchors": ["sumpf/_data/_signals/_signal.py: Signal.convolve", "sumpf/_internal/_convolution.py: convolve"]}
{"id": "C18", "title": "SAME and VALID convolution", "statement": "convolve in the modes SAME and VALID yields cutouts of the full convolution at the correct points in time: SAME has the length of the longer signal, VALID contains exactly those times, at which the shorter signal is completely overlapped by the longer one.", "quantifier": "all pairs of non-empty signals, all offsets", "why_tests_cant": "parity and which-is-longer cases", "anchors": ["sumpf/_internal/_convolution.py: convolve_same, convolve_valid"]}
{"id": "C19", "title": "Convolution in the frequency domain", "statement": "convolve(other, SPECTRUM_PADDED) gives the same signal as convolve(other, FULL) and convolve(other, SPECTRUM) gives the circular convolution of the zero padded signals.", "quantifier": "all pairs of non-empty real signals, all offsets", "why_tests_cant": "padding arithmetic must avoid wrap-around for every pair of lengths", "anchors": ["sumpf/_internal/_convolution.py: convolve_spectrum, convolve_spectrum_padded"]}
{"id": "C20", "title": "Correlation and its offset", "statement": "correlate(other, FULL) returns the cross-correlation as a function of the time lag: the sample at time index t is the sum of a(u)*b(u+t) over all u, including the effect of both offsets; SAME and VALID are cutouts of it at the correct lags.", "quantifier": "all pairs of non-empty real signals, all offsets", "why_tests_cant": "lag bookkeeping differs for every order of lengths and parity", "anchors": ["sumpf/_data/_signals/_signal.py: Signal.correlate", "sumpf/_internal/_convolution.py: correlate"]}
{"id": "C21", "title": "Correlation in the frequency domain", "statement": "correlate(other, SPECTRUM_PADDED) gives the same signal as correlate(other, FULL), correlate(other, SPECTRUM) is the circular cross-correlation with the lags starting at the documented offset.", "quantifier": "all pairs of non-empty real signals, all offsets", "why_tests_cant": "even/odd padding and cyclic shifts for every pair of lengths", "anchors": ["sumpf/_internal/_convolution.py: correlate_spectrum, correlate_spectrum_padded"]}
{"id": "C22", "title": "Concatenation", "statement": "The concatenation of signals is, as a function of time, the sum of the signals, each delayed to the end of its predecessor plus its own offset: overlapping samples are added, gaps are zero and no sample is lost or duplicated; it does not depend on how the time ranges are ordered or overlap.", "quantifier": "all finite sequences of signals with arbitrary lengths, offsets (also negative) and channel counts", "why_tests_cant": "the number of inputs and their overlaps are unbounded", "anchors": ["sumpf/_blocks/_concatenate.py: Concatenate"]}
{"id": "C23", "title": "Merging", "statement": "Merging data sets yields each channel of each input exactly once: FIRST_DATASET_FIRST in the order of the data sets, FIRST_CHANNELS_FIRST all first channels, then all second channels and so on; all samples stay at their time index and are zero where a data set has no samples; labels move along with their channels.", "quantifier": "all finite sequences of data sets with arbitrary channel counts, offsets and lengths", "why_tests_cant": "permutation properties over all sequences of channel counts", "anchors": ["sumpf/_blocks/_merge.py: Merge"]}
{"id": "C24", "title": "The merger's input bookkeeping", "statement": "After any history of add, remove and replace calls the output is that of merging the data sets that are present, in the order in which they have been added; replacing keeps the position, removing leaves the other inputs untouched; identifiers are never confused.", "quantifier": "all histories of add/remove/replace operations", "why_tests_cant": "histories are unbounded", "anchors": ["sumpf/_blocks/_merge.py: Merge.add, Merge.remove, Merge.replace", "sumpf/_blocks/_concatenate.py"]}
{"id": "C25", "title": "JACK playback and recording", "statement": "During a playback/recording of a signal through JACK every sample of the excitation is played exactly once and in order, the recorded samples are stored at the index at which the simultaneously played sample was taken, and the processing ends after all samples have been played.", "quantifier": "all signal lengths, all sequences of block sizes", "why_tests_cant": "schedules of process callbacks with arbitrary block sizes", "anchors": ["sumpf/_blocks/_jack.py: Jack.__call__ / on_process"]}
{"id": "C26", "title": "Rudin-Shapiro noise", "statement": "The Rudin-Shapiro spectrum's sample n has the sign of the n-th element of the Rudin-Shapiro sequence, i.e. (-1) to the number of (overlapping) occurrences of 11 in the binary representation of n, counted from the start frequency; all other bins are zero.", "quantifier": "all lengths and index ranges", "why_tests_cant": "recursive doubling must agree with the closed form for every n", "anchors": ["sumpf/_data/_spectrums/_rudinshapiro.py: RudinShapiroNoiseSpectrum"]}
{"id": "C27", "title": "Fade", "statement": "A fade signal is 0 before the rise and after the fall, 1 between them, monotone on the slopes, and all of its samples are defined and lie within the range of the fading function; the slopes are exactly the requested samples of the window.", "quantifier": "all lengths, rise/fall positions and slope lengths, all window functions", "why_tests_cant": "boundary arithmetic for all parameter combinations", "anchors": ["sumpf/_data/_signals/_fade.py: Fade"]}
{"id": "C28", "title": "Energy decay curves", "statement": "The energy decay curve's sample i is the energy (sum of the squares) of the signal from sample i on; it is non-negative, monotonically non-increasing and starts with the total energy.", "quantifier": "all signals", "why_tests_cant": "monotonicity for all signals", "anchors": ["sumpf/_data/_signals/_energy_decay.py: EnergyDecayCurveFromImpulseResponse"]}
{"id": "C29", "title": "Interpolations pass through their supporting points", "statement": "Every interpolation/extrapolation mode yields exactly the given value at each supporting point; the stairs interpolation always yields the value of the nearest supporting point.", "quantifier": "all supporting points, all modes and all evaluation points", "why_tests_cant": "for all point sets, including duplicates and single points", "anchors": ["sumpf/_internal/_interpolation.py: interpolation, linear, stairs_lin"]}
{"id": "C30", "title": "Segments of the short time Fourier transform", "statement": "The block-wise Fourier transform and the STFT process every sample of the signal: the windows of the block-wise transform are located at all multiples of the step size that overlap with the signal, those of the STFT at the multiples of the step size minus half of the window's length, and each sample is covered by at least one window.", "quantifier": "all signal lengths, window lengths and overlaps", "why_tests_cant": "coverage for all length/window/step combinations", "anchors": ["sumpf/_data/_signals/_signal.py: Signal.fourier_transform, Signal.short_time_fourier_transform"]}
{"id": "C31", "title": "Arithmetic of filter terms", "statement": "The sum, difference, product, quotient, negative, absolute and inverse of transfer functions, including all simplifications the implementation performs, evaluate to the respective operation on the evaluated transfer functions.", "quantifier": "all terms built from the constructors and operators, at all frequencies greater than zero", "why_tests_cant": "simplification rules must preserve the meaning for all expression trees", "anchors": ["sumpf/_data/_filters/_base/_terms/_binary.py", "sumpf/_data/_filters/_base/_terms/_primitive.py", "sumpf/_data/_filters/_base/_terms/_unary.py", "sumpf/_data/_filters/_base/_terms/_base.py"]}
{"id": "C32", "title": "Lowpass-to-highpass transform", "statement": "invert_transform replaces s by 1/s in the transfer function, whatever the term's structure; the construction of a term with transform=True evaluates to the untransformed term at 1/s.", "quantifier": "all terms, all frequencies greater than zero", "why_tests_cant": "structural property of all expression trees", "anchors": ["sumpf/_data/_filters/_base/_terms/_base.py: Term.__call__, Term.invert_transform", "sumpf/_data/_filters/_base/_s.py: S"]}
{"id": "C33", "title": "Channels of a filter are independent of each other", "statement": "The value of one channel of a filter at a frequency depends only on the transfer function of that channel, in particular it does not depend on which other channels are in the filter and in which order they are evaluated.", "quantifier": "all filters and all frequencies including 0 Hz", "why_tests_cant": "order dependence of hidden state needs all orders", "anchors": ["sumpf/_data/_filters/_base/_filter.py: Filter.__call__, Filter.spectrum", "sumpf/_data/_filters/_base/_s.py: S.fix, S.transform"]}
{"id": "C34", "title": "Equality of filter terms", "statement": "Terms that compare equal evaluate equally at every frequency and == is symmetric.", "quantifier": "all pairs of terms", "why_tests_cant": "quantifies over all pairs of trees", "anchors": ["sumpf/_data/_filters/_base/_terms/_primitive.py: Constant.__eq__, Polynomial.__eq__", "sumpf/_data/_filters/_base/_terms/_binary.py: __eq__"]}
{"id": "C35", "title": "Serialisation of filters", "statement": "Saving a filter as JSON and loading it again yields a filter that evaluates equally at every frequency greater than zero.", "quantifier": "all filters", "why_tests_cant": "all expression trees", "anchors": ["sumpf/_internal/_persistence/_filter_readers.py: term_from_dict", "sumpf/_internal/_persistence/_filter_writers.py: JsonWriter", "sumpf/_data/_filters/_base/_terms: as_dict"]}
{"id": "C36", "title": "Channel broadcasting in filter arithmetic", "statement": "An arithmetic operator on two filters combines the transfer functions channel by channel; a one-channel filter is broadcast; other channel counts are rejected with a ValueError; neutral numbers leave the filter unchanged.", "quantifier": "all filters with all channel counts", "why_tests_cant": "all channel count combinations", "anchors": ["sumpf/_data/_filters/_base/_filter.py: Filter.__algebra_function"]}
{"id": "C37", "title": "Butterworth magnitude", "statement": "A Butterworth lowpass of order n and cutoff frequency fc has the squared magnitude 1/(1+(f/fc)^(2n)), in particular 1/2 at fc; the highpass has (f/fc)^(2n)/(1+(f/fc)^(2n)).", "quantifier": "all orders n >= 1, all positive cutoff frequencies, all frequencies", "why_tests_cant": "all orders and real frequencies", "anchors": ["sumpf/_data/_filters/_butterworth.py: ButterworthFilter"]}
{"id": "C38", "title": "Bessel filter coefficients", "statement": "The Bessel filter's polynomial coefficients are the exact reverse Bessel polynomial coefficients (the integer division never rounds) and the filter's gain at 0 Hz is one.", "quantifier": "all orders", "why_tests_cant": "divisibility for all orders", "anchors": ["sumpf/_data/_filters/_bessel.py: BesselFilter"]}
{"id": "C39", "title": "Delay and derivative", "statement": "A delay filter has the magnitude one at all frequencies, delays add up when the filters are multiplied, and the derivative filter multiplies with j*2*pi*f.", "quantifier": "all delays and frequencies", "why_tests_cant": "real quantifiers", "anchors": ["sumpf/_data/_filters/_delay.py: DelayFilter", "sumpf/_data/_filters/_derivative.py: DerivativeFilter"]}
{"id": "C40", "title": "Weighting filters", "statement": "The weighting filters have the gain one at 1000 Hz.", "quantifier": "all weighting filters of the implementation", "why_tests_cant": "exact equality over the reals cannot be tested with floats", "anchors": ["sumpf/_data/_filters/_weighting.py"]}
{"id": "C41", "title": "Decibel conversion of band filters", "statement": "bands.to_db().from_db() and bands.from_db().to_db() restore the filter for the same reference and factor.", "quantifier": "all bands with positive values (or arbitrary levels), all positive references, all non-zero factors", "why_tests_cant": "real quantifiers", "anchors": ["sumpf/_data/_filters/_bands.py: Bands.to_db, Bands.from_db"]}
{"id": "C42", "title": "Symmetry and plateau of windows", "statement": "A symmetric window is a palindrome; an asymmetric (periodic) window's sample i equals its sample length-i for i>0; the plateau's samples in the middle are one and its length is the requested plateau; all samples are defined.", "quantifier": "all lengths, plateaus and window functions that are symmetric themselves", "why_tests_cant": "parity cases for all lengths", "anchors": ["sumpf/_data/_signals/_windows.py: Window.__init__, Window.plateau"]}
{"id": "C43", "title": "Overlap-add of windows", "statement": "The window's scaling factor compensates the gain of an overlap-add processing: if the overlapping windows add up to a constant c, then scaling_factor is 1/c; the periodic Hann window with an overlap of one half adds up to exactly one.", "quantifier": "all windows with the constant overlap-add property, all even lengths of the Hann window", "why_tests_cant": "exact real equality for all lengths", "anchors": ["sumpf/_internal/_functions.py: scaling_factor", "sumpf/_data/_signals/_windows.py: Window.scaling_factor, HannWindow"]}
{"id": "C44", "title": "Inverse sweeps", "statement": "The inverse of a linear (exponential) sweep is the sweep reversed in time, i.e. its sample at time index -t is the sweep's sample at t, times the documented gain (envelope); the instantaneous frequency functions describe the sweeps' phase.", "quantifier": "all lengths, frequencies, phases and start/stop intervals", "why_tests_cant": "for all real parameters", "anchors": ["sumpf/_data/_signals/_sweep.py: LinearSweep, ExponentialSweep, InverseLinearSweep, InverseExponentialSweep"]}
{"id": "C45", "title": "Harmonic impulse responses", "statement": "harmonic_impulse_response returns a signal with the requested length and the number of channels of the given impulse response, and does not modify the given impulse response.", "quantifier": "all impulse responses, all harmonics and lengths", "why_tests_cant": "aliasing and the length case distinction for all inputs", "anchors": ["sumpf/_data/_signals/_sweep.py: Sweep.harmonic_impulse_response"]}
{"id": "C46", "title": "Loading files", "statement": "Loading a file succeeds if and only if at least one available reader can read it, returns the result of the first one in the documented order and remembers a successful reader for the file extension.", "quantifier": "all sets of readers, all files, all histories of load calls", "why_tests_cant": "histories of loads with a cache", "anchors": ["sumpf/_internal/_persistence/_functions.py: read_file"]}
{"id": "C47", "title": "Saving files", "statement": "Saving with the format AUTO succeeds if and only if a format that is associated with the file extension can be written; a writer is created at most once per format and the cached writers never change the outcome.", "quantifier": "all histories of save calls, all availability combinations of libraries", "why_tests_cant": "histories with caches", "anchors": ["sumpf/_internal/_persistence/_functions.py: get_writer", "sumpf/_internal/_persistence/_auto_writer.py: AutoWriter"]}
{"id": "C48", "title": "Ordinal numbers in labels", "statement": "The labels contain grammatically correct English ordinals: 1st, 2nd, 3rd, 4th, ..., 11th, 12th, 13th, 21st, 111th.", "quantifier": "all natural numbers", "why_tests_cant": "all numbers", "anchors": ["sumpf/_internal/_text.py: counting_number"]}
{"id": "C49", "title": "Lossless integer audio files", "statement": "Writing a signal to an integer WAV/AIFF file with the standard library and reading it yields every sample rounded to the file's resolution, in the right channel and at the right position, for signals longer than the internal chunk size, too; samples that are multiples of the resolution are restored exactly.", "quantifier": "all numbers of channels and samples, all sample widths, all samples in the representable range", "why_tests_cant": "chunk boundaries and rounding for all lengths", "anchors": ["sumpf/_internal/_persistence/_signal_writers.py: StandardLibraryWriter", "sumpf/_internal/_persistence/_signal_readers.py: StandardLibraryReader"]}
{"id": "C50", "title": "Tabular files restore the time and frequency axis", "statement": "A signal or spectrum that is saved as a table (CSV or NPY) and loaded again has the same samples, sampling rate or resolution and offset.", "quantifier": "all signals and spectrums in exact arithmetic", "why_tests_cant": "all lengths, offsets and rates", "anchors": ["sumpf/_internal/_persistence/_signal_readers.py: from_rows", "sumpf/_internal/_persistence/_spectrum_readers.py: from_rows", "sumpf/_internal/_persistence/_signal_writers.py: CsvWriter"]}
{"id": "C51", "title": "Tabular storage of bands", "statement": "When channels with different sets of frequencies are saved as a table, the row of a frequency has exactly one cell per channel that contains the channel's value at that frequency if and only if the channel defines it; loading the table restores every channel.", "quantifier": "all finite sequences of band dictionaries", "why_tests_cant": "all patterns of shared and missing frequencies", "anchors": ["sumpf/_internal/_persistence/_filter_writers.py: TableWriter.__call__", "sumpf/_internal/_persistence/_filter_readers.py: TableReader"]}
{"id": "C52", "title": "Fourier transform and its inverse", "statement": "Transforming a signal of even length to the frequency domain and back restores the samples, the sampling rate and the length; the result starts at offset zero, with the samples rotated cyclically by the offset of the original; a spectrum of at least two bins with real-valued first and last bin is restored by the opposite order.", "quantifier": "all signals of even length, all spectrums", "why_tests_cant": "length arithmetic for all lengths", "anchors": ["sumpf/_data/_signals/_signal.py: Signal.fourier_transform", "sumpf/_data/_spectrums/_spectrum.py: Spectrum.inverse_fourier_transform"]}
{"id": "C53", "title": "Maximum length sequences", "statement": "If only the length of a maximum length sequence is given, the shift register is the smallest one whose period is not shorter than the length; if only the number of bits is given, the signal covers exactly one period; the samples are exactly +1 and -1; the seeding of the register never fails and never leaves the all-zero state.", "quantifier": "all lengths, register sizes and outcomes of the random generator", "why_tests_cant": "all register sizes and all random outcomes", "anchors": ["sumpf/_data/_signals/_mls.py: MaximumLengthSequence"]}
{"id": "C54", "title": "Level versus time", "statement": "The level-vs-time of a signal at time t is the root mean square of the samples in a window around t; the averages never divide by zero and window parts outside of the signal are handled as documented.", "quantifier": "all signals and window lengths", "why_tests_cant": "all boundary placements", "anchors": ["sumpf/_data/_signals/_signal.py: Signal.level_vs_time"]}
{"id": "C55", "title": "JACK output port names", "statement": "The names of the JACK output ports that are created from the labels of the played signal are pairwise distinct and not empty, there is one for each channel and a label that is not empty and has not been used before is kept.", "quantifier": "all label tuples", "why_tests_cant": "all collision patterns of labels and generated names", "anchors": ["sumpf/_blocks/_jack.py: Jack.__update_output_ports"]}
{"id": "C56", "title": "JACK stored connections", "statement": "When an input port is removed, the stored connections to that port are dropped and every other stored connection still refers to the same port as before, although the ports' indices change.", "quantifier": "all port lists, all stored connections given by index or name", "why_tests_cant": "all index/port combinations", "anchors": ["sumpf/_blocks/_jack.py: Jack.remove_input_port"]}
{"id": "C57", "title": "JACK xrun reports", "statement": "Every xrun that the JACK server reports is counted; the report contains the range of the samples of the recording that are corrupted and the delay in seconds.", "quantifier": "all sequences of xruns, all delays", "why_tests_cant": "unit conversion and counting for all reports", "anchors": ["sumpf/_blocks/_jack.py: on_xrun, Jack.xruns"]}
{"id": "C58", "title": "Reverberation time and decay model", "statement": "For an energy decay curve that is exactly exponential between the evaluated limits, the reverberation time is the time in which the curve decays by 60 dB and the decay model reproduces the evaluated samples of the curve.", "quantifier": "all curves with at least two evaluated samples, all limits", "why_tests_cant": "all sample rates and slopes", "anchors": ["sumpf/_data/_signals/_energy_decay.py: EnergyDecayCurve.reverberation_time", "sumpf/_data/_signals/_energy_decay.py: EnergyDecayCurve.decay_model"]}
{"id": "C59", "title": "Window flatness and overlap correlation", "statement": "The amplitude and power flatness of a window are the ratio of the minimum and the maximum of the sum of its (squared) overlapping repetitions, they are 1 exactly if that sum is constant; the overlap correlation is the normalised sum of products of the overlapping samples, which is between -1 and 1, 0 without overlap and 1 for a complete overlap.", "quantifier": "all windows and overlaps (integer and float)", "why_tests_cant": "all overlap lengths and windows", "anchors": ["sumpf/_data/_signals/_windows.py: Window.amplitude_flatness", "sumpf/_data/_signals/_windows.py: Window.power_flatness", "sumpf/_data/_signals/_windows.py: Window.overlap_correlation"]}
{"id": "C60", "title": "Filters at 0 Hz", "statement": "Terms that depend on the transformed frequency variable are zero at 0 Hz, where this variable is not finite; the parts of a transfer function that do not depend on it have the same value at 0 Hz as if they were evaluated alone.", "quantifier": "all terms", "why_tests_cant": "all expression trees, all contents of uninitialised memory", "anchors": ["sumpf/_data/_filters/_base/_s.py: TransformedS.fix", "sumpf/_data/_filters/_base/_terms: __call__"]}
{"id": "C61", "title": "Slicing filters", "statement": "Slicing a filter selects transfer functions and labels together, so each channel of the result evaluates like the selected channel of the original filter.", "quantifier": "all filters and all keys that select channels", "why_tests_cant": "all keys and channel counts", "anchors": ["sumpf/_data/_filters/_base/_filter.py: Filter.__getitem__"]}
{"id": "C62", "title": "Chebyshev type 1 magnitude", "statement": "A Chebyshev filter of type 1 has the squared magnitude (1 + e T_n(0)^2)/(1 + e T_n(f/fc)^2) (highpass: fc/f) with e from the given ripple. In the pass band of odd orders the ripple is an attenuation between 0 dB and the given ripple, in that of even orders an amplification between 0 dB and the given ripple, as documented. Even orders fall below 1.0 and odd orders below the ripple at the cutoff frequency. Without a ripple, the filter is a Butterworth filter.", "quantifier": "all orders, cutoff frequencies, ripples and frequencies, low- and highpass", "why_tests_cant": "all orders and frequencies", "anchors": ["sumpf/_data/_filters/_chebyshev.py: Chebyshev1Filter"]}
{"id": "C63", "title": "Chebyshev type 2 magnitude", "statement": "A Chebyshev filter of type 2 has the squared magnitude T_n(fc/f)^2/(T_n(fc/f)^2 + e) (highpass: f/fc) with e from the given ripple, so it stays below the given attenuation in the stop band and reaches it at the cutoff frequency.", "quantifier": "all orders, cutoff frequencies, ripples and frequencies, low- and highpass", "why_tests_cant": "all orders and frequencies", "anchors": ["sumpf/_data/_filters/_chebyshev.py: Chebyshev2Filter"]}
{"id": "C64", "title": "Construction of bands filters", "statement": "A bands filter has one channel per given dictionary; its supporting points are the dictionary's keys in ascending order with their values and do not depend on the order in which the dictionary was filled; interpolations, extrapolations and labels that are given as sequences are assigned to the channels in order and single ones to all channels.", "quantifier": "all sequences of dictionaries, all interpolations, extrapolations and labels", "why_tests_cant": "all dictionaries and orders of insertion", "anchors": ["sumpf/_data/_filters/_bands.py: Bands.__init__"]}
{"id": "C65", "title": "The axis of loaded tables", "statement": "A signal or spectrum, that is loaded from a table with equally spaced times or frequencies in any order, has each sample at its time or frequency; bins below the first frequency are zero and rows with negative frequencies are cropped.", "quantifier": "all tables with a constant distance between the rows, whose first row is at a multiple of this distance", "why_tests_cant": "all orders of the rows, all offsets", "anchors": ["sumpf/_internal/_persistence/_signal_readers.py: from_rows", "sumpf/_internal/_persistence/_spectrum_readers.py: from_rows"]}
{"id": "C66", "title": "JSON and NPZ files restore everything", "statement": "A signal, spectrum or spectrogram, that is saved as a JSON or NPZ file and loaded again, is the same: samples, shape, sampling rate, resolution, offset, labels and the ability to be hashed.", "quantifier": "all data sets, including empty ones", "why_tests_cant": "all shapes, in particular the empty ones", "anchors": ["sumpf/_internal/_persistence/_signal_readers.py: from_dict", "sumpf/_internal/_persistence/_spectrum_readers.py: JsonReader, NumpyReader", "sumpf/_internal/_persistence/_spectrogram_readers.py: JsonReader", "sumpf/_internal/_persistence/_spectrum_writers.py: as_dict, JsonWriter, NumpyNpzWriter", "sumpf/_internal/_persistence/_spectrogram_writers.py: as_dict, JsonWriter, NumpyNpzWriter"]}
{"id": "C67", "title": "Block-wise Fourier transform of the whole signal", "statement": "With padding, the block-wise Fourier transform of a signal is the sum of all samples times exp(-2*pi*i*f*t), where t is the time of the sample and f the frequency of the bin, i.e. the transform of the whole signal at the frequencies of the shorter spectrum, if the overlapping windows add up to a constant; in general, each sample is weighted with the sum of the overlapping windows and the scaling factor.", "quantifier": "all signals, windows and overlaps with the constant overlap-add property, where the signal is not shorter than the window", "why_tests_cant": "exact equality for all lengths, overlaps and offsets", "anchors": ["sumpf/_data/_signals/_signal.py: Signal.fourier_transform", "sumpf/_internal/_functions.py: get_window, scaling_factor"]}
{"id": "C68", "title": "Offset of the short time Fourier transform", "statement": "The offset of the spectrogram, that the short time Fourier transform of a signal computes, is the nearest integer to the scaled offset of the signal, and the remainder is a constant addition to the group delay, i.e. each bin with the frequency f is multiplied with exp(-2*pi*i*f*remainder/sampling_rate).", "quantifier": "all signals, windows, overlaps and offsets, where the signal is not shorter than the window", "why_tests_cant": "all offsets and bins; a wrong phase does not change the magnitudes that are usually compared", "anchors": ["sumpf/_data/_signals/_signal.py: Signal.short_time_fourier_transform"]}
{"id": "C69", "title": "Inverse short time Fourier transform", "statement": "With padding, the inverse short time Fourier transform of a signal's short time Fourier transform restores the signal's samples, followed by less zeros than the step size, and its sampling rate, offset and labels.", "quantifier": "all signals, whose offset is a multiple of the step size and which are not shorter than the window; all windows with a positive sum, whose overlapping squares do not vanish", "why_tests_cant": "exact equality for all lengths, windows and overlaps", "anchors": ["sumpf/_data/_signals/_signal.py: Signal.short_time_fourier_transform", "sumpf/_data/_spectrograms/_spectrogram.py: Spectrogram.inverse_short_time_fourier_transform"]}
{"id": "C70", "title": "Frequency range of sweeps", "statement": "All instantaneous frequencies of a sweep or an inverse sweep between its first sample and its end are between the sweep's minimum_frequency and maximum_frequency, which are attained.", "quantifier": "all frequencies, intervals, sampling rates and lengths", "why_tests_cant": "for all times between the samples", "anchors": ["sumpf/_data/_signals/_sweep.py: Sweep.minimum_frequency, Sweep.maximum_frequency, Sweep.instantaneous_frequency"]}
{"id": "C71", "title": "Delay in the frequency domain", "statement": "apply_delay advances each sinusoid, whose frequency is that of a bin of the spectrum, by the given time.", "quantifier": "all numbers of samples, sampling rates and delays", "why_tests_cant": "exact values for all lengths and bins", "anchors": ["sumpf/_data/_signals/_sweep.py: apply_delay"]}
{"id": "C72", "title": "Level of a whole signal", "statement": "The square of a channel's level is the mean of the squares of the channel's samples, the square of the single level of all channels is the mean of the squares of the channels' levels, a level never exceeds the largest absolute value of the samples and the level versus time of a constant signal without padding is its level.", "quantifier": "all signals with at least one sample and one channel", "why_tests_cant": "all samples, lengths and numbers of channels", "anchors": ["sumpf/_data/_signals/_signal.py: Signal.level, Signal.level_vs_time"]}
{"id": "C73", "title": "Arithmetic of spectrograms with signals", "statement": "A binary operator with a spectrogram and a signal, on either side, is applied pointwise: each frequency bin of each channel is combined with the signal's sample of the same channel and time; a single channel of one operand is combined with all channels of the other, samples that are covered by one of the operands only are treated as in the arithmetic of signals; the result has the hull of both time ranges and exposes no uninitialised memory.", "quantifier": "all spectrograms and signals with arbitrary shapes and offsets, all operators", "why_tests_cant": "the branches for the numbers of channels, time ranges, pivots and the side of the operator multiply", "anchors": ["sumpf/_data/_spectrograms/_spectrogram.py: Spectrogram._algebra_function, Spectrogram._algebra_function_right"]}
{"id": "C74", "title": "Arithmetic of spectrograms with spectrums", "statement": "A binary operator with a spectrogram and a spectrum, on either side, combines each sample of the spectrogram with the spectrum's value for the same channel and frequency bin; a single channel of one operand is combined with all channels of the other; spectrums with another number of bins are rejected; no uninitialised memory is exposed.", "quantifier": "all spectrograms and spectrums with arbitrary shapes, all operators", "why_tests_cant": "the branches for the numbers of channels, pivots and the side of the operator multiply", "anchors": ["sumpf/_data/_spectrograms/_spectrogram.py: Spectrogram._algebra_function, Spectrogram._algebra_function_right"]}
{"id": "C75", "title": "Corners and centres of parametrised windows", "statement": "The corners of the exponential window are attenuated by exactly the given decay in dB in comparison to its centre, its level falls linearly to both sides and a decay of zero gives a rectangular window; the Gaussian window is exp(-x^2/(2 sd^2)) with x from -1 to 1; the Parzen window reaches zero at its ends.", "quantifier": "all lengths, decays and standard deviations, symmetric and asymmetric windows", "why_tests_cant": "exact values for all parameters", "anchors": ["sumpf/_data/_signals/_windows_scipy.py: ExponentialWindow, GaussianWindow, ParzenWindow"]}
{"id": "C76", "title": "Cosine-sum windows", "statement": "The samples of the flat top and the Nuttall windows are the documented sums of cosines with the documented number of terms; the windows are symmetric, their value in the centre is one (up to 1e-5, which is the accuracy of the coefficients) and no other sample exceeds it; window functions, that are not in the enumeration, are rejected.", "quantifier": "all window functions of the enumerations, all lengths", "why_tests_cant": "exact symmetry and bounds for all lengths and all 26 window functions", "anchors": ["sumpf/_data/_signals/_windows_scipy.py: FlatTopWindow, NuttallWindow", "sumpf/_internal/_enums.py"]}
{"id": "C77", "title": "Decay of the side lobes", "statement": "The side lobes of the cosine-sum windows decay with the documented rates (6, 18, 30 or 42 dB per octave): the magnitude of the window's spectrum is bounded by a multiple of f^-e and approaches a multiple of f^-e in the middle between its zeros, where e is 1, 3, 5 or 7.", "quantifier": "all window functions, whose documentation states a decay; all frequencies above a limit", "why_tests_cant": "an asymptotic statement about all frequencies", "anchors": ["sumpf/_internal/_enums.py", "sumpf/_data/_signals/_windows_scipy.py: FlatTopWindow, NuttallWindow, BlackmanHarrisWindow", "sumpf/_data/_signals/_windows.py: HannWindow, HammingWindow, BlackmanWindow"]}
{"id": "C78", "title": "Shape of windows is independent of the length", "statement": "The shape of all window functions except for the Dolph-Chebyshev window does not depend on the length: if the number of steps between the samples is multiplied by k, every k-th sample of the new window is a sample of the original window.", "quantifier": "all lengths and factors, with and without a plateau", "why_tests_cant": "exact equality for all lengths", "anchors": ["sumpf/_data/_signals/_windows_scipy.py", "sumpf/_data/_signals/_windows.py"]}
{"id": "C79", "title": "Documented construction of windows", "statement": "The Bartlett-Hann window is an additive combination of the Bartlett and the Hann window, the Bohman window is the normalised autocorrelation of the cosine window and the Kaiser, Bartlett-Hann, Bohman, exponential, Gaussian and Parzen windows are symmetric.", "quantifier": "all lengths and samples", "why_tests_cant": "exact equality with an integral for all lengths", "anchors": ["sumpf/_data/_signals/_windows_scipy.py: BartlettHannWindow, BohmanWindow"]}
{"id": "C80", "title": "Bandwidth and scalloping loss of windows", "statement": "The scalloping loss is the ratio of the magnitudes of the window's spectrum at half a bin and at 0 Hz, it is not larger than one for windows without negative samples and 1/(N sin(pi/2N)) for rectangular windows; half of the bandwidth is the frequency, at which the linearly interpolated magnitude of the oversampled spectrum first crosses -3 dB.", "quantifier": "all windows, lengths, sampling rates and oversampling factors", "why_tests_cant": "exact values for all windows", "anchors": ["sumpf/_data/_signals/_windows.py: Window.bandwidth, Window.scalloping_loss"]}
{"id": "C81", "title": "Recommended overlap", "statement": "The recommended overlap is the smallest overlap, that maximises the difference between the amplitude flatness and the overlap correlation; no overlap is recommended for rectangular windows.", "quantifier": "all windows, whose samples are not all zero", "why_tests_cant": "the maximum over all overlaps for all windows", "anchors": ["sumpf/_data/_signals/_windows.py: Window.recommended_overlap"]}
{"id": "C82", "title": "Sine and square waves", "statement": "The samples of a sine wave are sin(2 pi f n / sampling_rate + phase), those of a square wave are the signs of the sine wave's samples, periods is the duration multiplied by the frequency, a shift by half a period inverts the waves, and a sine wave with a whole number of periods can be repeated seamlessly, has no mean and a mean square of 1/2.", "quantifier": "all frequencies, phases, sampling rates and lengths", "why_tests_cant": "exact sums for all lengths and numbers of periods", "anchors": ["sumpf/_data/_signals/_waves.py: SineWave, SquareWave, Wave.periods"]}
{"id": "C83", "title": "Constant signals, spectrums and spectrograms", "statement": "The constant signal, spectrum and spectrogram have one channel with the given length, in which every sample has the given value; no uninitialised memory is exposed.", "quantifier": "all values, lengths and sampling rates", "why_tests_cant": "all lengths and uninitialised memory", "anchors": ["sumpf/_data/_signals/_constant.py: ConstantSignal", "sumpf/_data/_spectrums/_constant.py: ConstantSpectrum", "sumpf/_data/_spectrograms/_constant.py: ConstantSpectrogram"]}
{"id": "C84", "title": "Padding and shifting spectrograms", "statement": "pad returns the requested number of time samples with the old values and the given value at the new ones; shift moves every value by the given number of samples (OFFSET), drops the values, that are moved beyond the ends (CROP), appends samples so that no value is lost (PAD) or rotates the values (CYCLE); everything else is kept and no uninitialised memory is exposed.", "quantifier": "all spectrograms, lengths, shifts and contents of the allocated memory", "why_tests_cant": "all shapes, shifts and uninitialised memory", "anchors": ["sumpf/_data/_spectrograms/_spectrogram.py: Spectrogram.pad, Spectrogram.shift"]}
{"id": "C85", "title": "Spectrogram bins behave like signals", "statement": "Padding and shifting a spectrogram have the same effect on each frequency bin as padding and shifting a signal with the values of this bin, including the failures.", "quantifier": "all spectrograms, bins, lengths, shifts and modes", "why_tests_cant": "a relation between two implementations for all inputs", "anchors": ["sumpf/_data/_spectrograms/_spectrogram.py: Spectrogram.pad, Spectrogram.shift", "sumpf/_data/_signals/_signal.py: Signal.pad, Signal.shift"]}
{"id": "C86", "title": "Slicing spectrums and spectrograms", "statement": "Slicing a spectrum or a spectrogram selects exactly the channels, bins and time samples of the keys with their labels; the selected values of a spectrogram stay at their times.", "quantifier": "all data sets and all integer, float and slice keys", "why_tests_cant": "all combinations of keys", "anchors": ["sumpf/_data/_spectrums/_spectrum.py: Spectrum.__getitem__", "sumpf/_data/_spectrograms/_spectrogram.py: Spectrogram.__getitem__"]}
{"id": "C87", "title": "Equality and hash of spectrums and spectrograms", "statement": "Two spectrums or spectrograms are equal, if and only if their shapes, samples, axes and labels are equal; equality is an equivalence relation and equal data sets have the same hash.", "quantifier": "all pairs of data sets and all hash functions of the samples", "why_tests_cant": "all pairs of data sets", "anchors": ["sumpf/_data/_spectrums/_spectrum.py: Spectrum.__eq__, Spectrum.__hash__", "sumpf/_data/_spectrograms/_spectrogram.py: Spectrogram.__eq__, Spectrogram.__hash__", "sumpf/_data/_sampled_data.py"]}
{"id": "C88", "title": "Arithmetic of spectrums and spectrograms with numbers and arrays", "statement": "Combining a spectrum or a spectrogram with a number or an array on either side applies the operation to each sample and the corresponding element and keeps everything else; arrays with other shapes raise a ValueError; the reciprocal spectrum is the multiplicative inverse where it exists.", "quantifier": "all data sets, operations and arrays", "why_tests_cant": "all shapes and operations", "anchors": ["sumpf/_data/_spectrums/_spectrum.py: Spectrum._algebra_function, Spectrum.__invert__", "sumpf/_data/_spectrograms/_spectrogram.py: Spectrogram._algebra_function"]}
{"id": "C89", "title": "Time and frequency samples", "statement": "The i-th time sample of a signal or a spectrogram is (offset + i) / sampling_rate, the k-th frequency sample of a spectrum or a spectrogram is k * resolution, the last one is the maximum frequency; samples with the same time index of different signals have the same time.", "quantifier": "all lengths, offsets, sampling rates and resolutions", "why_tests_cant": "exact equality for all lengths including one sample", "anchors": ["sumpf/_data/_signals/_signal.py: Signal.time_samples, Signal.duration", "sumpf/_data/_spectrums/_spectrum.py: Spectrum.frequency_samples, Spectrum.maximum_frequency", "sumpf/_data/_spectrograms/_spectrogram.py: Spectrogram.time_samples, Spectrogram.frequency_samples, Spectrogram.duration, Spectrogram.maximum_frequency"]}
{"id": "C90", "title": "Complex parts of spectrums and spectrograms", "statement": "Magnitude and phase are the unique polar coordinates and real and imaginary part the cartesian coordinates of the samples; abs, the negation and the conjugation keep everything but the samples; negation and conjugation are involutions, the product with the conjugate is the squared magnitude and the sum with the negative is zero.", "quantifier": "all spectrums and spectrograms", "why_tests_cant": "exact equality for all complex samples", "anchors": ["sumpf/_data/_spectrums/_spectrum.py: Spectrum.magnitude, Spectrum.phase, Spectrum.real, Spectrum.imaginary, Spectrum.conjugate, Spectrum.__abs__, Spectrum.__neg__", "sumpf/_data/_spectrograms/_spectrogram.py: Spectrogram.magnitude, Spectrogram.phase, Spectrogram.real, Spectrogram.imaginary, Spectrogram.conjugate"]}
{"id": "C91", "title": "Level of spectrums", "statement": "The level of a spectrum is the root-mean-square-level of the signal, to which it belongs: of the signal, from which it has been computed, and of its inverse Fourier transform, per channel and in total.", "quantifier": "all signals and spectrums", "why_tests_cant": "Parseval's theorem for all lengths", "anchors": ["sumpf/_data/_spectrums/_spectrum.py: Spectrum.level", "sumpf/_data/_signals/_signal.py: Signal.level"]}
{"id": "C92", "title": "Inverse of a signal", "statement": "The inverse of a signal is the signal, whose convolution with it is the unit impulse: the cyclic convolution of each channel with its inverse is the impulse, the convolution of the signals has its impulse at the time zero, the inverse of the inverse is the signal.", "quantifier": "all signals, whose transforms have no zeros", "why_tests_cant": "exact equality for all lengths and offsets", "anchors": ["sumpf/_data/_signals/_signal.py: Signal.__invert__"]}
{"id": "C93", "title": "Applying filters to data", "statement": "Multiplying a filter with a spectrum or a spectrogram scales each bin with the transfer function at its frequency; a filtered sinusoid is scaled by the magnitude and shifted by the phase of the transfer function, a delay filter delays the samples; everything else is kept.", "quantifier": "all filters, signals, spectrums and spectrograms", "why_tests_cant": "exact equality for all transfer functions and lengths", "anchors": ["sumpf/_data/_filters/_base/_filter.py: Filter.__mul__, Filter.spectrum"]}
{"id": "C94", "title": "Statistics of signals", "statement": "Mean, variance, standard deviation, skewness and kurtosis are those of the samples of each channel or of all samples; they fulfil the textbook relations with the level and with each other and transform under gain, inversion, reversal and rotation as they should.", "quantifier": "all signals with real samples", "why_tests_cant": "exact equality for all samples", "anchors": ["sumpf/_data/_signals/_signal.py: Signal.mean, Signal.standard_deviation, Signal.variance, Signal.skewness, Signal.kurtosis"]}
{"id": "C95", "title": "JACK connections", "statement": "Connecting ports establishes exactly this connection, immediately or when the client is activated; connecting twice has no effect; deactivating and activating restores all connections; changing the output ports keeps the connections of the channels; the only exception is a ValueError for unknown ports.", "quantifier": "all states of the JACK server and all port specifiers", "why_tests_cant": "requires a JACK server with all combinations of connections", "anchors": ["sumpf/_blocks/_jack.py: Jack.connect, Jack.activate, Jack.deactivate, Jack._store_connections, Jack.__connect, Jack.__update_output_ports"]}
{"id": "C96", "title": "Numbers in text tables", "statement": "A bands filter, that is stored as a text table in any of the five formats, is restored with the same frequencies and values, when the text of the file is read: each number is recognised with the right kind and in the right column, although the regular expressions backtrack; missing values and comments are handled as documented.", "quantifier": "all floats and complex values, all formats and delimiters", "why_tests_cant": "the texts of numbers have many forms, of which tests only cover a few", "anchors": ["sumpf/_internal/_persistence/_filter_writers.py: TextTableWriter, TextTabIWriter, TextTabJWriter, TextPipeIWriter, TextPipeJWriter, TextGnuplotWriter", "sumpf/_internal/_persistence/_filter_readers.py: TableReader"]}
{"id": "C97", "title": "Sampling rates in audio files", "statement": "A signal is stored in an audio file with the sampling rate, that is the nearest one of those, which the file format supports; a supported sampling rate is stored exactly; the mapping is monotonic.", "quantifier": "all positive and negative rational sampling rates", "why_tests_cant": "the thresholds of the formats are only met by few sampling rates", "anchors": ["sumpf/_internal/_persistence/_signal_writers.py: SoundfileWriter.__int_greater_zero, SoundfileWriter.__flac, SoundfileWriter.__vorbis"]}
{"id": "C98", "title": "Noise signals", "statement": "A noise signal has one channel with the requested length, sampling rate and the label of its distribution; with a seed it is reproducible and a shorter signal is the begin of a longer one; its samples are in the documented range and follow the distribution with the documented parameters.", "quantifier": "all sixteen classes, parameters, seeds and lengths", "why_tests_cant": "random samples can only be tested statistically and parameters can be exchanged unnoticed", "anchors": ["sumpf/_data/_signals/_noise.py: Noise, UniformNoise, GaussianNoise, TriangularNoise, HypergeometricNoise"]}
{"id": "C99", "title": "Convolution with numbers and arrays", "statement": "Convolving or correlating a signal with an array is the same as with a signal, that has the array as channels and no offset, except for the labels; convolving with a number is the same as convolving with an array of one sample in every mode: it multiplies the samples and keeps everything else.", "quantifier": "all signals, arrays, numbers and modes", "why_tests_cant": "exact equality for all combinations of shapes and modes", "anchors": ["sumpf/_data/_signals/_signal.py: Signal.convolve, Signal.correlate, Signal.__convolve_with_array, Signal.__convolve_with_scalar"]}
{"id": "C100", "title": "Text representation of filters", "statement": "The text of a filter, that is computed with repr, is an expression in python, whose evaluation restores the filter: the labels with arbitrary characters, complex numbers, tuples, lists and arrays, bands filters with their interpolations; a filter of compound terms has the same values.", "quantifier": "all filters with representable numbers, all kinds of sequences, all positions of line breaks", "why_tests_cant": "the texts of infinitely many terms, labels and numbers cannot be enumerated", "anchors": ["sumpf/_internal/_persistence/_filter_readers.py: ReprReader.__call__", "sumpf/_internal/_persistence/_filter_writers.py: ReprWriter.__call__", "sumpf/_data/_filters/_base/_filter.py: Filter.__repr__", "sumpf/_data/_filters/_bands.py: Bands.__repr__", "sumpf/_data/_filters/_base/_terms/_primitive.py: Polynomial.__repr__, Bands.__repr__"]}
{"id": "C101", "title": "Text representation of sampled data", "statement": "The text of a signal, spectrum or spectrogram, that is computed with repr, is an expression in python, whose evaluation restores the samples, the sampling rate or resolution, the offset and the labels exactly.", "quantifier": "all signals, spectrums and spectrograms with representable samples, arbitrary labels", "why_tests_cant": "the texts of infinitely many numbers, shapes and labels cannot be enumerated", "anchors": ["sumpf/_data/_signals/_signal.py: Signal.__repr__, Signal.__init__", "sumpf/_data/_spectrums/_spectrum.py: Spectrum.__repr__, Spectrum.__init__", "sumpf/_data/_spectrograms/_spectrogram.py: Spectrogram.__repr__, Spectrogram.__init__"]}
{"id": "C102", "title": "Stability of the analog filters", "statement": "The transfer functions of Butterworth, Chebyshev and Bessel filters of every order and of the weighting filters have no poles in the closed right half plane and no zeros in the open right half plane, so the filters are stable and have a minimum phase; their values at conjugate frequencies are conjugate, so their impulse responses are real.", "quantifier": "all orders, cutoff frequencies and ripples, lowpass and highpass, all complex frequencies in the right half plane", "why_tests_cant": "the transfer functions can only be sampled at frequencies on the imaginary axis", "anchors": ["sumpf/_data/_filters/_base/_iir.py: IIRFilter, RolloffFilter", "sumpf/_data/_filters/_base/_functions.py: frequency_scaling", "sumpf/_data/_filters/_butterworth.py: butterworth", "sumpf/_data/_filters/_chebyshev.py: chebyshev1, chebyshev2", "sumpf/_data/_filters/_bessel.py: bessel", "sumpf/_data/_filters/_weighting.py: _transfer_function, _a_factors, _b_factors, _c_factors, _d_factors, _u_factors"]}
{"id": "C103", "title": "Laws of the convolution", "statement": "The convolution of signals is associative and distributes over the sum of signals; a gain or a time shift of an operand is a gain or a time shift of the result; the convolution with a unit impulse shifts the signal to the time of the impulse; exchanging the operands of a correlation reverses the result; and the correlation is the convolution with the reversed signal.", "quantifier": "all signals with at least one sample, all offsets, lengths and combinations of channel numbers, samples of an arbitrary commutative semiring", "why_tests_cant": "the tests convolve a few signals with the modes and compare with numpy; no test combines several convolutions", "anchors": ["sumpf/_data/_signals/_signal.py: Signal.convolve, Signal.correlate, Signal.shift, Signal.__reversed__, Signal.__add__", "sumpf/_internal/_convolution.py: convolution, correlation"]}
{"id": "C104", "title": "Laws of the Fourier transform", "statement": "The Fourier transform of a sum of signals is the sum of their transforms; a time shift of the signal rotates the phases of its spectrum according to the frequency and the shift; the transform of a convolution is the product of the transforms of the signals, which are padded to the length of the convolution; the transform of the reversed signal is the complex conjugate of the transform.", "quantifier": "all signals with at least one channel and one sample, all lengths, offsets and shifts, all bins", "why_tests_cant": "the tests transform signals with known spectrums; the laws relate several methods (fourier_transform, convolve, pad, shift, reversed, arithmetic of spectrums) of two classes", "anchors": ["sumpf/_data/_signals/_signal.py: Signal.fourier_transform, Signal.__full_fourier_transform, Signal.convolve, Signal.pad, Signal.shift, Signal.__reversed__", "sumpf/_data/_spectrums/_spectrum.py: Spectrum._algebra_function"]}
{"id": "C105", "title": "Splitting and joining signals", "statement": "The slices of a slice are slices of the signal; slicing removes the samples, with which a signal has been padded; concatenating the blocks, in which a signal has been split along its time axis, restores the signal; merging its groups of channels restores the signal with its labels; each signal and each channel can be cut out of a merged signal; concatenations can be nested; delaying the first signal delays the whole concatenation.", "quantifier": "all signals, all numbers and widths of blocks and groups (including empty ones), all lists of signals with arbitrary offsets, both merge modes", "why_tests_cant": "the tests concatenate and merge a few signals and compare the samples; splitting in arbitrary blocks and nesting relate several classes and are not tested", "anchors": ["sumpf/_data/_signals/_signal.py: Signal.__getitem__, Signal.pad, Signal.shift", "sumpf/_blocks/_concatenate.py: Concatenate.output", "sumpf/_blocks/_merge.py: Merge.output"]}
{"id": "C106", "title": "Powers and remainders", "statement": "The power operator satisfies the laws of exponents (first power, square, sums and products of exponents, root of the square, exponential of a sum), the remainder operator yields the unique representative in [0, n) respectively (n, 0] and ignores multiples of the divisor, and the operators with a number on the left or on the right are related to each other and can be undone.", "quantifier": "all signals, all memory contents, all natural exponents and all samples, all real exponents and all positive samples, all divisors", "why_tests_cant": "the tests compare the operators with numpy for a few signals; they do not relate different operators with each other, and do not check the remainder, where the signals do not overlap", "anchors": ["sumpf/_data/_sampled_data.py: SampledData.__pow__, __rpow__, __radd__, __rsub__, __rmul__, __rtruediv__", "sumpf/_data/_signals/_signal.py: Signal.__mod__, Signal.__rmod__, Signal._algebra_function_right", "sumpf/_data/_spectrums/_spectrum.py: Spectrum._algebra_function, Spectrum.__invert__"]}
{"id": "C107", "title": "Laws of filtering", "statement": "Filtering spectrums and signals is linear; filters commute; applying a product of filters is the same as applying one filter after the other; an inverted filter undoes the filter; filtering a signal with an even number of samples is the cyclic convolution with the impulse response, which is the inverse Fourier transform of the filter's spectrum; filters are time invariant with respect to cyclic shifts and to the offset of the signal.", "quantifier": "all filters (products and inverses: all plain transfer functions), all spectrums and all signals with an even length, all channel numbers that fit, all offsets and shifts", "why_tests_cant": "the tests multiply a few filters with a few signals; the laws relate the term algebra, the evaluation, the Fourier transform and the label and offset handling for all inputs", "anchors": ["sumpf/_data/_filters/_base/_filter.py: Filter.__mul__, Filter.__invert__, Filter.__call__, Filter.spectrum", "sumpf/_data/_signals/_signal.py: Signal.fourier_transform", "sumpf/_data/_spectrums/_spectrum.py: Spectrum.inverse_fourier_transform, Spectrum._algebra_function"]}
{"id": "C108", "title": "Laws of levels, energy decay curves and reverberation times", "statement": "A gain multiplies the level and the level over time with its magnitude, the energy decay curve and the decay model with its square, and does not change the reverberation time; levels satisfy the triangle inequality and grow with the magnitude of the samples; the energy decay curve of the end of an impulse response is the end of its curve; the reverberation time is -60 dB divided by the slope of the regression line of the curve in dB; the decay model has the same reverberation time as the curve and is its own decay model.", "quantifier": "all signals, all gains, all integration times with and without padding (all branches of the computation, all contents of uninitialised memory), all limits with at least two samples, all least squares solvers", "why_tests_cant": "the tests compute the level of a few signals and the reverberation time of exponential decays; the laws cover arbitrary curves, where the regression is not exact, and relate different computations", "anchors": ["sumpf/_data/_signals/_signal.py: Signal.level, Signal.level_vs_time", "sumpf/_data/_signals/_energy_decay.py: EnergyDecayCurve.__init__, reverberation_time, decay_model"]}
{"id": "C109", "title": "Spectrums of padded and repeated signals and of test signals", "statement": "Padding a signal with zeros samples the same continuous spectrum more densely, so that every q-th bin is unchanged, when the length is multiplied with q; the spectrum of a signal, that is repeated q times, consists of its q-fold spectrum in every q-th bin and of zeros in between; the spectrum of a sine wave with a whole number of periods has one line with half the length as magnitude and the phase of the wave; the spectrum of a constant has only the bin of 0 Hz.", "quantifier": "all signals with at least one channel and one sample, all padded lengths, all numbers of repetitions, all frequencies below half of the sampling rate with a whole number of periods, all phases, all bins", "why_tests_cant": "the tests compute the spectrums of a few signals with fixed lengths; the statements are about all lengths and all bins and relate the signal classes, Concatenate, pad and the Fourier transform", "anchors": ["sumpf/_data/_signals/_signal.py: Signal.fourier_transform, Signal.pad", "sumpf/_blocks/_concatenate.py: Concatenate.output", "sumpf/_data/_signals/_waves.py: SineWave.__init__", "sumpf/_data/_signals/_constant.py: ConstantSignal.__init__"]}
{"id": "C110", "title": "Period, autocorrelation and spectrum of maximum length sequences", "statement": "A maximum length sequence with n bits has the period 2**n - 1 and no shorter one; each pattern of n successive samples, except for the one whose samples are all -1, appears exactly once per period; the sum of one period is 1; its cyclic autocorrelation is -1 for all delays, that are no multiples of the period; the spectrum of one period is flat; sequences with different seeds are cyclic shifts of each other.", "quantifier": "all numbers of bits from 2 to 32, all seeds (outcomes of the random generator), all signal lengths, all delays and all bins", "why_tests_cant": "the longest sequences have more than 4*10^9 samples and each seed is a different sequence, so the tests can only check short sequences with a few seeds", "anchors": ["sumpf/_data/_signals/_mls.py: MaximumLengthSequence.__init__, MaximumLengthSequence.period_length, MaximumLengthSequence.periods"]}
{"id": "C111", "title": "The crest factor of Rudin-Shapiro noise with a sequence length of a power of two is at most 6.02 dB", "statement": "If the length of the sequence is 2^k and the sequence covers neither the constant component nor the last bin of a spectrum with M + 1 bins, the inverse transform of the RudinShapiroNoiseSpectrum has the level sqrt(2*2^k)/(2M) and no sample exceeds two times this level. If the edge bins are covered, no sample exceeds (sqrt(2*2^k)+1)/M.", "quantifier": "all start and stop frequencies, resolutions and lengths, for which the sequence length is a power of two", "why_tests_cant": "Tests check the crest factor of a few spectrums. The bound holds for all of them and rests on an algebraic identity of the two halves of the sequence.", "anchors": ["sumpf/_data/_spectrums/_rudinshapiro.py:26-90", "sumpf/_data/_spectrums/_spectrum.py:369-387"]}
{"id": "C112", "title": "Data sets, that have been saved to a file, can be loaded from that file", "statement": "Signal.load, Spectrum.load and Spectrogram.load restore the data set, that has been stored with the method save, through the registries of readers and writers: Exactly for CSV, JSON, NPZ and pickle files (explicit format and format AUTO), except for the labels for NPY files, and up to the resolution of the format for integer audio files. The reader is found for each extension of the file, even if it does not fit to the format. Without the library soundfile, WAV and AIFF files are stored with 32 bit integers and FLAC and Ogg files are refused with an ImportError.", "quantifier": "all data sets with at least one channel and two samples, all formats and extensions, all sequences of previous calls of save, with and without the library soundfile", "why_tests_cant": "The choice of the writer and the reader depends on what has been saved before, on the extension and on the installed libraries. Tests cover single formats in a fresh session with one set of libraries.", "anchors": ["sumpf/_data/_signals/_signal.py: Signal.load, Signal.save", "sumpf/_data/_spectrums/_spectrum.py: Spectrum.load, Spectrum.save", "sumpf/_data/_spectrograms/_spectrogram.py: Spectrogram.load, Spectrogram.save", "sumpf/_internal/_persistence/_functions.py", "sumpf/_internal/_persistence/_auto_writer.py"]}
{"id": "C113", "title": "The side lobes of the Dolph-Chebyshev window are equally high and have the specified attenuation", "statement": "The spectrum of a symmetric Dolph-Chebyshev window without a plateau exceeds the maximum of its main lobe divided by 10^(attenuation/20) exactly for the frequencies inside of its main lobe. All side lobes reach this bound, and they do so exactly at the frequencies given by the extrema of the Chebyshev polynomial. No other sequence of the same length has a larger sum while its spectrum does not exceed the same bound outside of the main lobe. The samples are positive, the one in the middle is one and symmetric windows are palindromes.", "quantifier": "all lengths from three samples, all attenuations except for zero, all continuous frequencies and, for the optimality, all sequences of real or complex samples", "why_tests_cant": "Tests can only sample the spectrum at finitely many frequencies for a few lengths and attenuations. That the window is optimal among all sequences cannot be tested at all.", "anchors": ["sumpf/_data/_signals/_windows_scipy.py: DolphChebyshevWindow"]}
{"id": "C114", "title": "Slepian windows have positive, unimodal and normalized samples", "statement": "A Slepian window without a plateau can be created for all lengths. Its samples are positive and increase up to the centre of the window; symmetric windows are palindromes. If there is a sample in the centre, it is one and no other sample is larger. Otherwise the interpolation of the samples with a trigonometric polynomial is one in the centre. The sequence does not depend on the sign of the eigenvector, that is found by the solver for eigenvalues.", "quantifier": "all lengths, all values of beta, symmetric and non-symmetric windows, all solvers, that return a normalized eigenvector for the largest eigenvalue", "why_tests_cant": "The samples are the result of an eigenvalue decomposition, so tests can only check single lengths and values of beta, and they cannot vary the solver.", "anchors": ["sumpf/_data/_signals/_windows_scipy.py: SlepianWindow"]}
{"id": "C115", "title": "Slepian windows minimize the energy of the side lobes", "statement": "A symmetric Slepian window without a plateau minimizes the energy of the side lobes in relation to that of the main lobe, where the main lobe consists of the angular frequencies up to 2 * beta / length. No other real or complex sequence of the same length has a larger share of its energy in the main lobe and all sequences, that have the same share, are multiples of the window. The spectrum does not have zeros in the main lobe.", "quantifier": "all lengths from three samples on, all positive values of beta below half of the length times pi, all competing complex sequences, all solvers, that return a normalized eigenvector for the largest eigenvalue", "why_tests_cant": "The optimality is a statement about all other sequences and about integrals over continuous spectrums, and the window is computed from a tridiagonal matrix, which has no visible relation to these integrals.", "anchors": ["sumpf/_data/_signals/_windows_scipy.py: SlepianWindow"]}
{"id": "C116", "title": "The group delay of Bessel filters is constant in the pass band", "statement": "The group delay of a Bessel filter (the negative derivative of its continuous phase) is positive, never exceeds the delay of the cutoff frequency's period divided by two pi and deviates from it below the cutoff frequency by a share, that is smaller than the power 2 * order of the relative frequency, divided by the squared double factorial of 2 * order - 1. The magnitude of lowpass filters decreases and that of highpass filters increases with the frequency. At the cutoff frequency, the attenuation is 3 dB.", "quantifier": "all cutoff frequencies, all orders, all positive frequencies, lowpass and highpass filters", "why_tests_cant": "The group delay is a derivative and the deviation from a constant delay becomes too small for floating point numbers; monotonicity is a statement about all pairs of frequencies.", "anchors": ["sumpf/_data/_filters/_bessel.py: bessel", "sumpf/_data/_filters/_bessel.py: BesselFilter"]}
{"id": "C117", "title": "The harmonics of an exponential sweep are delayed copies of the sweep", "statement": "When the delay log(k) * l, with which harmonic_impulse_response cuts out the k-th harmonic, has passed, the instantaneous frequency of an exponential sweep has been multiplied by k and its phase is that of the k-th harmonic, except for a constant. If the delay is an integer number of samples and the phase is synchronized, the k-th harmonic of the sweep's samples and the output of the corresponding Chebyshev polynomial are exactly the later samples of the sweep. harmonic_impulse_response cuts out those samples, which precede the linear impulse response by the time, in which the frequency of the sweep is multiplied by more than k - 1 and at most k.", "quantifier": "all start and stop frequencies, phases, intervals, sampling rates and lengths, all orders of harmonics, all times", "why_tests_cant": "The relation between the sweep and the function for cutting out harmonics holds for real numbers; tests would have to measure a nonlinear system and could only compare approximations.", "anchors": ["sumpf/_data/_signals/_sweep.py: BaseExponentialSweep.harmonic_impulse_response", "sumpf/_data/_signals/_sweep.py: ExponentialSweep"]}
{"id": "C118", "title": "Windows rise up to their centre and fall after it", "statement": "The functions of the rectangular, Bartlett, Hann, Hamming, Blackman, Kaiser, Bartlett-Hann, Blackman-Harris, Bohman, exponential, Gaussian, Nuttall and Parzen windows do not fall up to the centre of the window, do not rise after it and are between zero and one. The samples of the window signals have these properties, too, with and without a plateau and for symmetric and periodic windows. Therefore fades with such a window never go back: a fade in does not decrease and a fade out does not increase.", "quantifier": "all lengths, plateaus, parameters of the windows and intervals of fades", "why_tests_cant": "Tests compare windows with those of numpy and scipy for a few lengths; monotony is a statement about all pairs of samples for all lengths and parameters.", "anchors": ["sumpf/_data/_signals/_windows.py: Window", "sumpf/_data/_signals/_windows_scipy.py: NuttallWindow", "sumpf/_data/_signals/_windows_scipy.py: ParzenWindow", "sumpf/_data/_signals/_fade.py: Fade"]}
{"id": "C119", "title": "Chebyshev filters have the steepest transition, Butterworth filters are maximally flat", "statement": "Of all filters of the same order, whose transfer function is the inverse of a polynomial and whose magnitude varies by no more than the ripple in the pass band, the Chebyshev filter of type 1 has the least relative magnitude at each frequency of the stop band. Of all maximally flat filters of the same order, that have the given attenuation in the stop band, the Chebyshev filter of type 2 has the greatest magnitude at each frequency of the pass band. The Butterworth filter is the only maximally flat filter with a polynomial as inverse transfer function and an attenuation of 3 dB at the cutoff frequency, and its lowpass and highpass are power complementary. The claim of the documentation, that Butterworth filters are optimized for a fast transition while maintaining a monotonic magnitude, does not hold in general.", "quantifier": "all cutoff frequencies, ripples, orders and frequencies, lowpass and highpass filters, all competing filters", "why_tests_cant": "The optimality is a statement about all other filters; tests can only compare the magnitude with some other filters at some frequencies.", "anchors": ["sumpf/_data/_filters/_chebyshev.py: chebyshev1", "sumpf/_data/_filters/_chebyshev.py: chebyshev2", "sumpf/_data/_filters/_butterworth.py: butterworth"]}
{"id": "C120", "title": "The short time Fourier transform is linear, time invariant, calibrated and preserves the energy", "statement": "The short time Fourier transform of a sum of signals is the sum of their spectrograms and a gain of the signal is a gain of the spectrogram. Shifting the signal by a multiple of the step size shifts the spectrogram by this number of steps. No bin is greater than the peak of the signal, if the window is not negative. A tone, whose frequency is that of a bin, has half of its amplitude in this bin, whatever its phase is; with the default parameters this holds for all even window lengths. The energy of the spectrogram is the energy of the signal, weighted with the sums of the squared windows, that cover the samples.", "quantifier": "all signals, windows, overlaps and offsets, with and without padding, all numbers of channels", "why_tests_cant": "Tests transform some signals; the laws relate the results for all pairs of signals, gains, shifts and window lengths.", "anchors": ["sumpf/_data/_signals/_signal.py: short_time_fourier_transform", "sumpf/_internal/_functions.py: get_window"]}
{"id": "C121", "title": "The shape of interpolated curves", "statement": "The linear interpolation is linear in the values of the supporting points and the logarithmic interpolation of a product is the product of the interpolations. Between two supporting points, the values of the linear and the logarithmic interpolations are between the values of these points. Values, that do not fall, lead to a curve, that does not fall, including the extrapolation. The curve of the linear interpolation is nowhere steeper than the steepest line between two neighbouring points. For rising values, exchanging the axes leads to the inverse function. The magnitude of a bands filter with linear interpolation does not exceed the magnitudes of the neighbouring bands.", "quantifier": "all numbers and positions of supporting points, all values, all positions of the evaluation", "why_tests_cant": "Tests evaluate some curves at some positions; the properties are about all curves and all pairs of positions.", "anchors": ["sumpf/_internal/_interpolation.py: linear", "sumpf/_internal/_interpolation.py: logarithmic", "sumpf/_internal/_interpolation.py: log_x", "sumpf/_internal/_interpolation.py: log_y", "sumpf/_data/_filters/_base/_terms/_primitive.py: Bands"]}
{"id": "C122", "title": "Joining data commutes with processing it", "statement": "Merging signals, spectrums or spectrograms, to whose samples an operation, that keeps zeros, has been applied (the absolute values, the negation, the conjugation, a multiplication with or a division by a number), is the same as applying the operation to the merged data, for both orders of the channels and for all offsets and lengths. The Fourier transform of merged signals with the same time range is the merged spectrum of the Fourier transforms. Concatenating signals, to whose samples an additive operation has been applied, is the same as applying the operation to the concatenation, even if the signals overlap.", "quantifier": "all numbers of data sets with arbitrary shapes, offsets and samples, both merging strategies, all operations with the mentioned properties", "why_tests_cant": "The property compares two ways of processing for infinitely many operations and shapes; tests check some combinations.", "anchors": ["sumpf/_blocks/_merge.py: Merge", "sumpf/_blocks/_concatenate.py: Concatenate", "sumpf/_data/_signals/_signal.py: Signal.fourier_transform", "sumpf/_data/_signals/_signal.py: Signal.__abs__", "sumpf/_data/_signals/_signal.py: Signal.__mul__"]}
{"id": "C123", "title": "The slopes of the filters", "statement": "Far from the cutoff frequency, the level of a Butterworth, a Bessel or a Chebyshev filter of type 1 with the order n changes by 20\u00b7n decibels per decade, towards high frequencies for a lowpass and towards low frequencies for a highpass. The asymptote of the Butterworth filter is the power of the relative frequency, that of the Bessel filter has been raised by the double factorial of 2n-1, that of the Chebyshev filter has been lowered by the ripple and by 6 decibels for each order above one. The level of Chebyshev filters of type 2 falls by 20 decibels per decade, if the order is odd, and approaches the attenuation of the stop band, if it is even. The A-, B-, C-, D- and U-weighting filters rise by 80, 60, 40, 20 and 0 decibels per decade at low frequencies and fall by 40, 40, 40, 20 and 120 decibels per decade at high frequencies.", "quantifier": "all orders, cutoff frequencies and ripples, lowpass and highpass filters, all weightings", "why_tests_cant": "The slopes are limits for infinitely high or infinitely low frequencies and for all orders.", "anchors": ["sumpf/_data/_filters/_butterworth.py: ButterworthFilter", "sumpf/_data/_filters/_bessel.py: BesselFilter", "sumpf/_data/_filters/_chebyshev.py: Chebyshev1Filter, Chebyshev2Filter", "sumpf/_data/_filters/_weighting.py"]}
{"id": "C124", "title": "The life cycle of a JACK client", "statement": "While a recording is in progress, setting the signal, retrieving the recording and enabling the automatic deactivation wait. Whatever callbacks (blocks of samples, changes of the sampling rate, xruns) occur, the recording is finished by the first block after the end of the signal and then has one channel per input port with its name as label, the offset and the length of the signal, the latest sampling rate and the samples that have been read from the ports. A shutdown of the server ends the recording and keeps the samples recorded so far. Callbacks change neither the signal nor the ports and connections; the number of xruns is that of the reported ones. Ports can be added, when their name is unused, and removed by their name, without affecting other ports.", "quantifier": "all signals, port names, sequences of callbacks and calls", "why_tests_cant": "Tests run a JACK server with a single block size and cannot trigger shutdowns, xruns and sampling rate changes at arbitrary times of a recording.", "anchors": ["sumpf/_blocks/_jack.py: Jack, on_process, on_sampling_rate_change, on_shutdown, on_xrun"]}
{"id": "C125", "title": "Cutting out harmonic impulse responses is linear", "statement": "The harmonic impulse response of a weighted sum of two impulse responses is the weighted sum of their harmonic impulse responses, for each order and each requested length, independent of the content of uninitialized memory. Each channel of the result depends on the same channel of the impulse response only.", "quantifier": "all impulse responses, weights, orders and lengths", "why_tests_cant": "Tests compare single harmonics of single measurements; linearity is a statement about all pairs of impulse responses and weights, and includes the fractional delay in the frequency domain.", "anchors": ["sumpf/_data/_signals/_sweep.py: BaseExponentialSweep.harmonic_impulse_response, apply_delay"]}
{"id": "C126", "title": "Short descriptions identify the parameters of data sets", "statement": "Numbers in the short descriptions are printed with two decimals, which deviate from the number by at most half a hundredth. Signals, spectrums and spectrograms of the same class with the same description have the same shape and offset, and their sampling rates and resolutions differ by at most one hundredth. Filters with the same description have the same number of channels, xruns with the same description corrupt the same samples. Every opened parenthesis is closed.", "quantifier": "all data sets, class names and addresses", "why_tests_cant": "Tests check single strings; the statement that no two different shapes can lead to the same text is about all pairs of data sets.", "anchors": ["sumpf/_data/_signals/_signal.py: Signal.__str__", "sumpf/_data/_spectrums/_spectrum.py: Spectrum.__str__", "sumpf/_data/_spectrograms/_spectrogram.py: Spectrogram.__str__", "sumpf/_data/_filters/_base/_filter.py: Filter.__str__", "sumpf/_blocks/_jack.py: XRun.__str__"]}
{"id": "C127", "title": "Filters with real parameters map real signals to real signals", "statement": "The value of the transfer function at a negative frequency is the complex conjugate of the value at the positive frequency, when all numbers in it are real; then the value at 0 Hz is real, too. This holds for the delay, derivative, Butterworth, Bessel and Chebyshev filters and is preserved by all arithmetic operations with filters and real numbers. It should also hold for the weighting filters.", "quantifier": "all frequencies, all parameters of the filters, all terms without bands, all operators and all recursion depths", "why_tests_cant": "The term algebra has many rewriting rules; tests cannot show, that none of them introduces a complex number for any combination of terms, and the negative frequencies are never evaluated in tests.", "anchors": ["sumpf/_data/_filters/_base/_terms/_base.py: Term.__call__", "sumpf/_data/_filters/_base/_terms/_primitive.py: Polynomial", "sumpf/_data/_filters/_base/_terms/_binary.py: Product", "sumpf/_data/_filters/_base/_filter.py: Filter.__call__", "sumpf/_data/_filters/_butterworth.py: butterworth", "sumpf/_data/_filters/_bessel.py: bessel", "sumpf/_data/_filters/_chebyshev.py: chebyshev2", "sumpf/_data/_filters/_weighting.py: _transfer_function"]}
{"id": "C128", "title": "With rising order, the filters approach ideal filters", "statement": "With rising order, the magnitude of Butterworth filters approaches one at each frequency of the pass band and zero at each frequency of the stop band, while it remains -3dB at the cutoff frequency. The magnitude of the Chebyshev filters of type 1 approaches zero in the stop band, that of the Chebyshev filters of type 2 approaches one in the pass band. The Bessel lowpass filters approach the delay filter with the delay 1 / (2 * pi * cutoff_frequency), so their magnitude and that of the highpass filters approaches one everywhere. For a vanishing ripple, the Chebyshev filters of type 1 approach a magnitude of one everywhere, while a ripple of zero creates a Butterworth filter (this is the jump, which the documentation mentions).", "quantifier": "all positive frequencies except for the cutoff frequency, all cutoff frequencies, lowpass and highpass filters, all ripples; limits for the order or the ripple", "why_tests_cant": "A limit cannot be observed with finitely many orders, and filters with high orders are out of the range of the floating point numbers.", "anchors": ["sumpf/_data/_filters/_base/_iir.py: IIRFilter, RolloffFilter", "sumpf/_data/_filters/_base/_functions.py: frequency_scaling", "sumpf/_data/_filters/_butterworth.py: butterworth", "sumpf/_data/_filters/_bessel.py: bessel", "sumpf/_data/_filters/_chebyshev.py: chebyshev1", "sumpf/_data/_filters/_chebyshev.py: chebyshev2", "sumpf/_data/_filters/_chebyshev.py: Chebyshev1Filter.__init__", "sumpf/_data/_filters/_delay.py: DelayFilter.__init__"]}
{"id": "C129", "title": "Arithmetic with bands is exact for the fitting interpolation", "statement": "The operators for two bands with the same frequencies and interpolations compute with the values of the supporting points. At the supporting points, the results are those of the operators on the values. Between them and outside of them, this holds for sums and differences with the interpolations, that are linear in the values, for products, quotients, inverses and magnitudes with the other interpolations and for the negation with all interpolations. It should hold for all interpolations.", "quantifier": "all bands with equally many frequencies and complex values, all interpolations and extrapolations, all frequencies; logarithmic interpolations of products, if the sums of the phases are in the range of the phases", "why_tests_cant": "Tests compare values at some frequencies for some interpolations; that the interpolation and the operator are exchangeable is a statement about all frequencies and values.", "anchors": ["sumpf/_data/_filters/_base/_terms/_primitive.py: Bands.__add__", "sumpf/_data/_filters/_base/_terms/_primitive.py: Bands.__sub__", "sumpf/_data/_filters/_base/_terms/_primitive.py: Bands.__mul__", "sumpf/_data/_filters/_base/_terms/_primitive.py: Bands.__truediv__", "sumpf/_data/_filters/_base/_terms/_primitive.py: Bands.__neg__", "sumpf/_data/_filters/_base/_terms/_primitive.py: Bands.__invert__", "sumpf/_data/_filters/_base/_terms/_primitive.py: Bands.__abs__", "sumpf/_internal/_interpolation.py: get"]}
{"id": "C130", "title": "Fade signals can be applied, split, mirrored and replaced by windows", "statement": "A signal, that is multiplied with a fade in and out, is zero outside of the intervals and unchanged between them. A fade in and out is the product of the separate fades, a fade out and in is their sum. A fade over the first and the last samples is a symmetric window with a plateau. With a symmetric function, the reversed fade in is the fade out over the mirrored interval. Fade in and fade out over one interval add up to one exactly for the functions, whose halves add up to one.", "quantifier": "all functions, intervals within the signal, lengths, numbers of channels and samples, independently of the content of the memory", "why_tests_cant": "Tests compare a few fades with a few window functions; the relations between different constructors are statements about all functions, intervals and lengths.", "anchors": ["sumpf/_data/_signals/_fade.py: Fade.__init__", "sumpf/_data/_signals/_fade.py: fade_in_out", "sumpf/_data/_signals/_fade.py: fade_out_in", "sumpf/_data/_signals/_windows.py: Window.__init__", "sumpf/_data/_sampled_data.py: SampledData.__mul__"]}
{"id": "C131", "title": "A recording contains the responses of the connected systems to the signal", "statement": "If linear and time invariant systems are connected to the ports of a JACK client, then the recording has as many samples as the signal and consists of the beginning of the responses of these systems to the signal. For a loopback, this is the signal delayed by the latency, for a single channel it is the beginning of the convolution of the signal with the impulse response. The recording does not depend on the sizes of the blocks.", "quantifier": "all signals, systems, numbers of ports, contents of the memory and sequences of blocks, in which no block contains the end of the signal and samples before it, except for the first one", "why_tests_cant": "Tests need a running JACK server and check single loopbacks; the statement is about the closed loop of callbacks and systems for all signals, systems and sizes of blocks.", "anchors": ["sumpf/_blocks/_jack.py: on_process", "sumpf/_blocks/_jack.py: Jack.start", "sumpf/_blocks/_jack.py: Jack.output", "sumpf/_data/_signals/_signal.py: Signal.convolve"]}
{"id": "C132", "title": "Dividing the spectrums of a response and of its excitation restores the impulse response", "statement": "If y is the response of a linear and time invariant system to the excitation x, no bin of whose Fourier transform is zero, then the inverse Fourier transform of y.fourier_transform() / x.fourier_transform() has the samples of the impulse response of the system. This holds for excitations, that are repeated periodically, for excitations, that end with silence of the length of the impulse response, for the convolution of two signals (the first of which is padded to the length of the convolution) and for the recordings of a JACK client. The difference of the offsets delays the result.", "quantifier": "all excitations with an even number of samples, all impulse responses, numbers of channels, offsets and sampling rates", "why_tests_cant": "Tests identify few systems and compare with tolerances; the statement is the exact composition of the convolution, the Fourier transform, the division, the inverse transform and the recording.", "anchors": ["sumpf/_data/_signals/_signal.py: Signal.fourier_transform", "sumpf/_data/_signals/_signal.py: Signal.convolve", "sumpf/_data/_signals/_signal.py: Signal.pad", "sumpf/_data/_spectrums/_spectrum.py: Spectrum.inverse_fourier_transform", "sumpf/_data/_sampled_data.py: SampledData.__truediv__", "sumpf/_blocks/_jack.py: Jack.output"]}
{"id": "C133", "title": "The correlation finds the delay between signals", "statement": "The correlation in the mode FULL of a signal with a delayed and amplified copy of it has its unique maximum at the delay, where its value is the amplification times the energy of the signal; in particular the autocorrelation is symmetric and has its unique maximum at the lag zero. No value of a correlation is greater than the geometric mean of the energies. The Fourier transform of a correlation is the product of the Fourier transforms of the padded signals, the first of which is conjugated, so that that of the autocorrelation is the power spectrum.", "quantifier": "all signals with real samples, lengths, offsets, delays, amplifications and numbers of channels", "why_tests_cant": "Tests compare few correlations with numpy's; that the maximum is unique and located at the delay (with regard to both offsets) for all signals is a theorem.", "anchors": ["sumpf/_data/_signals/_signal.py: Signal.correlate", "sumpf/_internal/_convolution.py: FullCorrelation", "sumpf/_data/_signals/_signal.py: Signal.shift", "sumpf/_data/_signals/_signal.py: Signal.fourier_transform"]}
{"id": "C134", "title": "The curves of the weighting filters have the shapes of the standard", "statement": "In a diagram with logarithmic axes, the magnitudes of the A-, B- and C-weighting filters are concave functions of the frequency, so they rise to one maximum and fall after it. Up to the reference frequency of 1000 Hz, the A-weighting does not pass more than the B-weighting and that not more than the C-weighting; from the reference frequency on, the order is reversed. The curve of the C-weighting is symmetric about the geometric mean of its two specified frequencies 10^1.5 Hz and 10^3.9 Hz and it passes at least half of the power exactly between these frequencies.", "quantifier": "all frequencies greater than zero", "why_tests_cant": "Tests compare the magnitudes at the frequencies of a table with a tolerance; the shape between, below and above these frequencies is not tested.", "anchors": ["sumpf/_data/_filters/_weighting.py: AWeighting", "sumpf/_data/_filters/_weighting.py: BWeighting", "sumpf/_data/_filters/_weighting.py: CWeighting", "sumpf/_data/_filters/_weighting.py: _transfer_function"]}
{"id": "C135", "title": "Laws of the inverse Fourier transform", "statement": "The samples of the inverse Fourier transform of a spectrum are the values of the real trigonometric polynomial, whose coefficients are the bins of the spectrum, at the points in time of the samples. Therefore the transform of a sum is the sum of the transforms, that of a conjugated spectrum is cyclically reversed in time and that of a product of spectrums with real first and last bins is the cyclic convolution. Padding a spectrum with zeros or cropping bins, that are zero, resamples the signal: the new samples are values of the same polynomial at the new points in time, scaled by the ratio of the lengths; when padding to the m-fold number of frequencies, each sample becomes every m-th sample of the new signal.", "quantifier": "all spectrums with at least two bins and a resolution other than zero, all numbers of channels and all lengths", "why_tests_cant": "Tests compare the inverse transform with numpy's for few spectrums; the relation between the bins and the values at the times of the samples, in particular after padding, is not tested.", "anchors": ["sumpf/_data/_spectrums/_spectrum.py: Spectrum.inverse_fourier_transform", "sumpf/_data/_spectrums/_spectrum.py: Spectrum.pad", "sumpf/_data/_spectrums/_spectrum.py: Spectrum.conjugate"]}
{"id": "C136", "title": "The gain of a filter bounds the level of the filtered signals", "statement": "If the magnitude of the transfer function is at most g at the frequencies of the bins of a signal with an even number of samples, then the level of each channel of the filtered signal is at most g times that of the original channel. If it is at least g and the transfer function is real at 0 Hz and half the sampling rate, then the level is at least g times that of the original. In particular, Butterworth, Bessel and Chebyshev 2 filters never increase the level of a signal, and neither do Chebyshev 1 filters of odd order; those of even order increase it by at most their ripple.", "quantifier": "all valid signals with an even number of samples, all filters with finite transfer functions; all cutoff frequencies, orders and ripples, lowpass and highpass", "why_tests_cant": "Tests filter few signals and compare magnitudes of few transfer functions; a bound for the levels of all signals is a statement about infinitely many signals and relies on Parseval's theorem.", "anchors": ["sumpf/_data/_filters/_base/_filter.py: Filter.__call__", "sumpf/_data/_filters/_butterworth.py: ButterworthFilter", "sumpf/_data/_filters/_bessel.py: BesselFilter", "sumpf/_data/_filters/_chebyshev.py: Chebyshev1Filter", "sumpf/_data/_filters/_chebyshev.py: Chebyshev2Filter", "sumpf/_data/_signals/_signal.py: Signal.level"]}
{"id": "C137", "title": "The weighting filters follow the tables of the standards at all frequencies", "statement": "The levels of the A-, B-, C-, D- and U-weighting at the exact third-octave frequencies 10^(k/10) are the tabulated values of the standards, when rounded to tenths of a decibel. Between these frequencies, the levels of the A-, B- and C-weighting deviate from the linearly interpolated table by not less than -0.05 and not more than 0.35 decibels. The A-weighting amplifies no frequency by more than 1.65 decibels, the B- and C-weighting by no more than 0.35 decibels, so the weighted level of a signal never exceeds its level by more than that.", "quantifier": "all tabulated frequencies (exact, not rounded), all frequencies in between, and all positive frequencies for the maxima; all valid signals with an even number of samples for the levels", "why_tests_cant": "The tests compare the filters to the tables at rounded frequencies with floating point numbers; they say nothing about the frequencies in between, nor about the maxima of the curves.", "anchors": ["sumpf/_data/_filters/_weighting.py: AWeighting", "sumpf/_data/_filters/_weighting.py: BWeighting", "sumpf/_data/_filters/_weighting.py: CWeighting", "sumpf/_data/_filters/_weighting.py: DWeighting", "sumpf/_data/_filters/_weighting.py: UWeighting", "sumpf/_data/_filters/_weighting.py: _transfer_function"]}
{"id": "C138", "title": "Delay and derivative filters act on the trigonometric interpolation of a signal", "statement": "Exactly one real trigonometric polynomial, whose frequencies are the frequencies of the bins and whose highest frequency has no sine, has the values of the samples of a channel at their points in time. A signal, that is filtered with a delay filter, has the values of this polynomial at the points in time, that are earlier by the delay. A signal, that is filtered with a derivative filter, has the values of the derivative of this polynomial at the points in time of the samples.", "quantifier": "all valid signals with an even number of samples, any offset, any number of channels and any positive sampling rate; all real delays, which do not have to be multiples of the sampling period", "why_tests_cant": "The tests delay signals by whole numbers of samples and compare derivatives of particular functions with tolerances; fractional delays and the behaviour at half the sampling rate are never checked.", "anchors": ["sumpf/_data/_filters/_delay.py: DelayFilter", "sumpf/_data/_filters/_derivative.py: DerivativeFilter", "sumpf/_data/_filters/_base/_filter.py: Filter.__mul__"]}
{"id": "C139", "title": "The phase of the filters falls by 90 degrees for each order", "statement": "The unwrapped phase of Butterworth, Chebyshev and Bessel filters, which vanishes at the end of the pass band, is strictly decreasing. In the stop band, it approaches 90 degrees times the order (lowpass filters: it falls from 0 to minus this angle, highpass filters: it falls from this angle to 0). For Butterworth filters, it is symmetric around the cutoff frequency, where it is 45 degrees times the order. For Chebyshev filters of type 2, the sign changes at the zeros in the stop band are excluded from the phase.", "quantifier": "all orders, cutoff frequencies and ripples, lowpass and highpass filters, all positive frequencies", "why_tests_cant": "The tests compare the magnitudes and a few values to those of other implementations; a filter with mirrored poles has the same magnitude, but a rising phase.", "anchors": ["sumpf/_data/_filters/_butterworth.py: ButterworthFilter", "sumpf/_data/_filters/_chebyshev.py: Chebyshev1Filter", "sumpf/_data/_filters/_chebyshev.py: Chebyshev2Filter", "sumpf/_data/_filters/_bessel.py: BesselFilter"]}
{"id": "C140", "title": "Butterworth filters as crossovers", "statement": "A lowpass and a highpass ButterworthFilter with the same cutoff frequency and the same order split the energy of a signal: the squares of their magnitudes add up to one at every frequency. The transfer functions of first order filters add up to exactly one. If the order is odd, the magnitudes of the sum and of the difference of the two filters are one at every frequency. If it is even, they cancel each other out at the cutoff frequency or are 3 dB too loud there, depending on whether the order is a multiple of four. The squares of the filters are a Linkwitz-Riley crossover: the sum (even order) or the difference (odd order) of the squared filters has the magnitude one at every frequency and the magnitude of each of them at the cutoff frequency is one half.", "quantifier": "for all cutoff frequencies > 0, orders > 0 and frequencies > 0", "why_tests_cant": "The relation between two filters at all frequencies and for all orders, including the phases, cannot be checked by comparing samples with reference values of one filter.", "anchors": ["sumpf/_data/_filters/_butterworth.py: ButterworthFilter", "sumpf/_data/_filters/_base/_filter.py: Filter.__add__", "sumpf/_data/_filters/_base/_filter.py: Filter.__sub__", "sumpf/_data/_filters/_base/_filter.py: Filter.__mul__"]}
{"id": "C141", "title": "Slices with steps and tuples of keys", "statement": "Slices of signals, spectrums, spectrograms and filters, that have a step, select exactly the elements, that Python specifies for such slices, in the order given by the sign of the step; each selected channel keeps its label and each selected sample stays at its time or frequency. A tuple with fewer keys than the data has axes selects everything along the remaining axes. Without steps, slicing has the effects, that are specified in the other properties. A step of zero raises a ValueError.", "quantifier": "all data sets, all starts, stops and steps (integer, float, negative, missing, out of range) and all tuples of keys", "why_tests_cant": "The combinations of signs, bounds, steps and lengths are infinitely many; the tests check a few of them for one length.", "anchors": ["sumpf/_internal/_indexing.py: key_to_slices", "sumpf/_data/_signals/_signal.py: Signal.__getitem__", "sumpf/_data/_spectrums/_spectrum.py: Spectrum.__getitem__", "sumpf/_data/_spectrograms/_spectrogram.py: Spectrogram.__getitem__", "sumpf/_data/_filters/_base/_filter.py: Filter.__getitem__"]}
{"id": "C142", "title": "Sums, moments and bounds of convolutions", "statement": "The sum of the samples of a full convolution is the product of the sums of the samples of the two signals; its centre of gravity is the sum of the centres of gravity (including the offsets), its squared width is the sum of the squared widths. More generally, each weighted sum of its samples is the sum over all pairs of samples with added times. Its peak is at most the peak of the one signal times the sum of the absolute values of the other, which cannot be improved; its energy is at most the energy of the one times the square of this sum.", "quantifier": "all pairs of non-empty signals with all lengths, offsets, numbers of channels (including broadcasting) and samples; all weights", "why_tests_cant": "The laws relate sums over all samples of arbitrary signals; the peak and energy bounds are inequalities with sharp constants.", "anchors": ["sumpf/_data/_signals/_signal.py: Signal.convolve", "sumpf/_internal/_convolution.py: convolve"]}
{"id": "C143", "title": "Statistics of the test signals", "statement": "The statistical parameters, that the methods of the signals compute for the test signals, are those of the ideal signals: a sine wave with a whole number of periods has the mean 0, the variance 1/2, the skewness 0 and the kurtosis -3/2 for each phase; a square wave has the mean 0, the variance 1, the skewness 0 and the kurtosis -2, if it is not sampled at its jumps; a constant signal has its value as mean, the variance 0 and neither a skewness nor a kurtosis; a maximum length sequence with whole periods of the length P has the mean 1/P and the variance, skewness and kurtosis, that follow from it.", "quantifier": "all frequencies, phases, sampling rates, lengths, numbers of periods, seeds and numbers of bits", "why_tests_cant": "The parameters are sums over all samples of infinitely many signals; the tests compute them for single signals with rounding errors.", "anchors": ["sumpf/_data/_signals/_signal.py: Signal.mean", "sumpf/_data/_signals/_signal.py: Signal.variance", "sumpf/_data/_signals/_signal.py: Signal.skewness", "sumpf/_data/_signals/_signal.py: Signal.kurtosis", "sumpf/_data/_signals/_waves.py: SineWave", "sumpf/_data/_signals/_waves.py: SquareWave", "sumpf/_data/_signals/_constant.py: ConstantSignal", "sumpf/_data/_signals/_mls.py: MaximumLengthSequence"]}
{"id": "C144", "title": "Evaluating transfer functions in place", "statement": "Evaluating a transfer function with an array, in which the result shall be stored, returns this array with the values for all frequencies and without an influence of its previous contents or of uninitialised memory. Without such an array, a new one is returned. Other arrays, e.g. other channels or the stored values of the frequency variable, are never changed. So the spectrum of a filter, that is computed in place in the rows of one matrix, and the arrays, that a filter returns for an array of frequencies, contain the same values as the evaluation for each frequency on its own.", "quantifier": "all terms with arbitrary nesting, numbers of frequencies, frequencies including 0 Hz, memory contents and filters", "why_tests_cant": "Reusing an array, that is still needed as an operand, gives wrong values for certain nestings of terms only; the terms can be nested arbitrarily. Uninitialised memory often contains zeros in tests.", "anchors": ["sumpf/_data/_filters/_base/_terms/_base.py: Term.__call__", "sumpf/_data/_filters/_base/_terms/_primitive.py: Constant._compute", "sumpf/_data/_filters/_base/_terms/_primitive.py: Polynomial._compute", "sumpf/_data/_filters/_base/_terms/_primitive.py: Exp._compute", "sumpf/_data/_filters/_base/_terms/_primitive.py: Bands._compute", "sumpf/_data/_filters/_base/_terms/_unary.py: Absolute._compute", "sumpf/_data/_filters/_base/_terms/_unary.py: Negative._compute", "sumpf/_data/_filters/_base/_terms/_binary.py: Sum._compute", "sumpf/_data/_filters/_base/_terms/_binary.py: Difference._compute", "sumpf/_data/_filters/_base/_terms/_binary.py: Product._compute", "sumpf/_data/_filters/_base/_terms/_binary.py: Quotient._compute", "sumpf/_data/_filters/_base/_functions.py: copy_to_out", "sumpf/_data/_filters/_base/_s.py: S", "sumpf/_data/_filters/_base/_s.py: TransformedS", "sumpf/_data/_filters/_base/_filter.py: Filter.spectrum"]}
{"id": "C145", "title": "Rounding errors and indices", "statement": "Indices, that are computed with floating point numbers of double precision, are those of the exact computation: a float index k/n or k/(n-1) finds the sample k, a multiple of the resolution its bin, a point in time k/rate its sample, the offset of a short time Fourier transform is not influenced by the division, the offset of a signal and the lack of an offset of a spectrum are restored from the rounded times and frequencies in a table, and the window for the level has the length of the integration time.", "quantifier": "all numbers of samples, indices, offsets, resolutions and sampling rates within the limits, that are stated in the theorems", "why_tests_cant": "Rounding errors depend on the numbers in an irregular way: e.g. 7/48000*48000 is above 7, while 6/48000*48000 is exact; tests use a few round numbers.", "anchors": ["sumpf/_internal/_indexing.py: index", "sumpf/_internal/_indexing.py: key_to_slices", "sumpf/_internal/_persistence/_signal_readers.py: from_rows", "sumpf/_internal/_persistence/_spectrum_readers.py: from_rows", "sumpf/_data/_spectrums/_rudinshapiro.py: RudinShapiroNoiseSpectrum", "sumpf/_data/_signals/_signal.py: Signal.short_time_fourier_transform", "sumpf/_data/_signals/_signal.py: Signal.level_vs_time", "sumpf/_data/_signals/_signal.py: Signal.time_samples", "sumpf/_data/_spectrums/_spectrum.py: Spectrum.frequency_samples"]}
{"id": "C146", "title": "Signals behave like immutable values, although they share memory", "statement": "A program, that computes signals from signals by slicing, reversing, padding, shifting, by arithmetic, by merging and concatenating them and by computing energy decay curves, has the same results with arrays in memory, which are partly shared by the signals, as with signals, that are immutable values. It does not change anything, that has been in the memory before. Slices, reversed signals and signals with a shifted offset are views of the same memory, the results of the other operations are stored in new memory, so that overwriting their samples does not change other signals.", "quantifier": "all programs of these operations, all memory contents, all views with arbitrary strides", "why_tests_cant": "Errors from aliasing appear only for certain combinations of operations and certain orders, in which the results are used.", "anchors": ["sumpf/_data/_signals/_signal.py: Signal.__getitem__", "sumpf/_data/_signals/_signal.py: Signal.__reversed__", "sumpf/_data/_signals/_signal.py: Signal.pad", "sumpf/_data/_signals/_signal.py: Signal.shift", "sumpf/_data/_signals/_signal.py: Signal._algebra_function", "sumpf/_data/_signals/_energy_decay.py: EnergyDecayCurve", "sumpf/_blocks/_merge.py: Merge.output", "sumpf/_blocks/_concatenate.py: Concatenate.output", "sumpf/_internal/_functions.py: allocate_array"]}
{"id": "C147", "title": "Rounding errors of samples, times and frequencies", "statement": "If every operation is rounded to double precision, the energy decay curve is still not negative and does not increase, and its relative error is at most 2^-52 per sample. The times of the samples of a signal increase strictly and each of them identifies its sample, likewise the frequencies of the bins of a spectrum. The errors of the mean and of the convolution in the mode FULL are at most proportional to the number of summed values, for every order of the additions; the variance is not negative. Energies and convolutions of integers are exact below 2^53. Sums and products of signals do not depend on the order of the operands and differences are negated by exchanging the operands.", "quantifier": "all signals and spectrums up to 2^48 samples, all rational samples, all orders of the additions, with and without fused multiplications and additions", "why_tests_cant": "The tests compare floating point numbers with tolerances, which are chosen for a few examples; they do not show, which errors are possible for other signals.", "anchors": ["sumpf/_data/_signals/_energy_decay.py: EnergyDecayCurve", "sumpf/_data/_signals/_signal.py: Signal.time_samples", "sumpf/_data/_spectrums/_spectrum.py: Spectrum.frequency_samples", "sumpf/_data/_signals/_signal.py: Signal.mean", "sumpf/_data/_signals/_signal.py: Signal.variance", "sumpf/_internal/_convolution.py: FullConvolution", "sumpf/_data/_sampled_data.py: SampledData.__add__, SampledData.__sub__, SampledData.__mul__"]}
{"id": "C148", "title": "Threads of the recording", "statement": "The program calls start, input and output in one thread, while the JACK server calls the process callback in another one; they share attributes without a lock. If the program waits (with input or output) between two calls of start, the signals, which output returns, are those of the sequential execution in every interleaving: each contains the complete recording of the signal, that was set, when start was called. A signal, that has been returned, is not changed by a callback, that is still running, or by a later recording, although it refers to the array, in which has been recorded. No assignment in the callback fails. Unless the client deactivates itself between two recordings, of which the first one has not been retrieved, the client is active during a recording, there is no deadlock and the number of callbacks is bounded.", "quantifier": "all interleavings of the single accesses to the attributes, all sequences of calls of the methods, all signals and blocks, any number of ports", "why_tests_cant": "The tests run only a few interleavings, which the scheduler happens to choose, and they need a running JACK server.", "anchors": ["sumpf/_blocks/_jack.py: Jack.start", "sumpf/_blocks/_jack.py: Jack.input", "sumpf/_blocks/_jack.py: Jack.output", "sumpf/_blocks/_jack.py: on_process", "sumpf/_blocks/_jack.py: on_shutdown"]}
{"id": "C149", "title": "Data types of the samples", "statement": "The results do not depend on the data type, in which the samples are stored: arrays of every numerical data type can be allocated, sums, differences, products, negatives and magnitudes of signals are exact for all types of samples, and the concatenation of data sets with different data types is the sum of the delayed data sets.", "quantifier": "all data types (boolean, signed and unsigned integers, floating point and complex numbers of all sizes), all signals and spectrograms", "why_tests_cant": "The tests only use arrays of doubles and complex doubles.", "anchors": ["sumpf/_internal/_functions.py: allocate_array", "sumpf/_blocks/_concatenate.py: Concatenate.output", "sumpf/_data/_signals/_signal.py: Signal._algebra_function", "sumpf/_data/_signals/_signal.py: Signal.__neg__", "sumpf/_data/_signals/_signal.py: Signal.__abs__"]}
{"id": "C150", "title": "Stored results of the processing blocks", "statement": "The output methods of Merge, Concatenate and Jack, which store their results until an input method declares them as outdated, always return what would be computed from the current state of the instance; calling an output method does not influence later results.", "quantifier": "all sequences of method calls (including those that raise exceptions) and callbacks of the JACK server, all data sets", "why_tests_cant": "The tests check the results after a few fixed sequences of modifications; they cannot check, that no sequence of calls leads to an outdated result.", "anchors": ["sumpf/_blocks/_merge.py: Merge.output", "sumpf/_blocks/_merge.py: Merge.set_mode", "sumpf/_blocks/_concatenate.py: Concatenate.output", "sumpf/_blocks/_jack.py: Jack.output", "sumpf/_blocks/_jack.py: Jack.input_ports", "sumpf/_blocks/_jack.py: Jack.input", "sumpf/_blocks/_jack.py: Jack.start"]}
{"id": "C151", "title": "Equality and hashes of signals with different types of numbers", "statement": "The equality of signals is an equivalence relation on the values of their samples and parameters, independently of whether the values are stored as integers or as floating point numbers, and equal signals have equal hashes.", "quantifier": "all signals with 64 bit integers or floating point numbers as samples, including infinities and NaN", "why_tests_cant": "The tests compare signals of doubles with a few values; the rounding in the comparison of large integers and the hashes of NaN only matter for values, that are not tested.", "anchors": ["sumpf/_data/_sampled_data.py: SampledData.__eq__", "sumpf/_data/_sampled_data.py: SampledData.__hash__", "sumpf/_data/_signals/_signal.py: Signal.__eq__", "sumpf/_data/_signals/_signal.py: Signal.__hash__"]}
{"id": "C152", "title": "Measurement of impulse responses with maximum length sequences", "statement": "When a linear system is excited with periods of a maximum length sequence, the correlation of one period with the response of the system is the impulse response at its time in the following period, multiplied with 2**bits, minus the sum of the samples of the impulse response; there is no other deviation.", "quantifier": "all numbers of bits from 2 to 32, all seeds, all impulse responses (any number of channels, any offset), that are not longer than the period", "why_tests_cant": "The tests check the two-valued autocorrelation for a few sequences; they never combine the sequence with the convolution and the correlation of signals.", "anchors": ["sumpf/_data/_signals/_mls.py: MaximumLengthSequence", "sumpf/_data/_signals/_signal.py: Signal.convolve", "sumpf/_data/_signals/_signal.py: Signal.correlate"]}
{"id": "C153", "title": "Signals without samples", "statement": "Signals without samples, like the default signal, are treated like silence: padding them gives a constant, their spectrum is zero and transforms back to a signal without samples, adding them to a signal does not change the signal, and convolutions and correlations with them are silent in all modes.", "quantifier": "all signals without samples (any number of channels, any offset, any sampling rate), all other signals, all convolution modes", "why_tests_cant": "The tests use the default signal only with the JACK block and in the comparison of signals; the exceptions depend on the mode, on the order of the signals and even on the parity of the length of the other signal.", "anchors": ["sumpf/_data/_signals/_signal.py: Signal.__init__", "sumpf/_data/_signals/_signal.py: Signal.pad", "sumpf/_data/_signals/_signal.py: Signal.fourier_transform", "sumpf/_data/_signals/_signal.py: Signal.convolve", "sumpf/_data/_signals/_signal.py: Signal.correlate", "sumpf/_internal/_convolution.py: SpectrumCorrelation", "sumpf/_internal/_convolution.py: SpectrumPaddedCorrelation", "sumpf/_data/_spectrums/_spectrum.py: Spectrum.inverse_fourier_transform"]}
{"id": "C154", "title": "The inverse short time Fourier transform is the least squares solution", "statement": "The inverse short time Fourier transform of any spectrogram, e.g. of a modified one, that is not the transform of a signal, is the signal of this shape, whose short time Fourier transform has the smallest squared distance to the spectrogram. The distance of any other signal's transform is larger by the squared differences of the samples, weighted with the sum of the squared overlapping windows. Transforming the result forth and back does not change it any further. The inverse transform is linear. With the default parameters, this applies to all spectrograms with at least three segments.", "quantifier": "all spectrograms with any complex values, all numbers of channels, windows with any positive sum (one for all channels or one for each channel), overlaps, with and without padding; as long as the sum of the squared overlapping windows is zero or exceeds the threshold 1e-10 of scipy at each sample", "why_tests_cant": "the optimality is a statement about all signals; tests can only compare the transform with its inverse", "anchors": ["sumpf/_data/_spectrograms/_spectrogram.py: Spectrogram.inverse_short_time_fourier_transform", "sumpf/_data/_signals/_signal.py: Signal.short_time_fourier_transform"]}
{"id": "C155", "title": "Each sample of a result depends only on the samples around it", "statement": "If two signals agree at some points in time, their energy decay curves agree at all times, after which the signals agree; their convolutions and correlations with other signals in the modes FULL, SAME and VALID agree at all times, for which only agreeing samples are multiplied, so that filtering with a causal impulse response is causal; their levels over time agree, where the signals agree within half of the integration time; the segments of their short time Fourier transforms agree, if the signals agree inside the window; and the inverse transforms of two spectrograms agree at each sample, for which the spectrograms agree in all segments that contain it.", "quantifier": "all pairs of signals and spectrograms of the same shape, all sets of points in time or segments, all lengths, offsets, channels, integration times, windows and overlaps", "why_tests_cant": "Tests process complete signals and compare whole results; that a sample has no influence outside of its vicinity is a statement about pairs of runs.", "anchors": ["sumpf/_data/_signals/_energy_decay.py: EnergyDecayCurve", "sumpf/_data/_signals/_signal.py: Signal.convolve", "sumpf/_data/_signals/_signal.py: Signal.correlate", "sumpf/_data/_signals/_signal.py: Signal.level_vs_time", "sumpf/_data/_signals/_signal.py: Signal.short_time_fourier_transform", "sumpf/_data/_spectrograms/_spectrogram.py: Spectrogram.inverse_short_time_fourier_transform"]}
{"id": "C156", "title": "Spectrums behave like immutable values, although they share memory", "statement": "A program, that computes spectrums by slicing, padding, element-wise functions, arithmetic with spectrums and arrays and merging, has the same results with arrays in memory, that are partly shared by the spectrums, as with immutable values: it raises the same exceptions, every spectrum keeps the samples that have been computed for it, and no array that existed before is changed. Slices share the buffer of the original spectrum, all other results are stored in new buffers. Samples, that the caller writes to the array of such a new spectrum, do not change older spectrums, while samples, that are written to a slice, are samples of the original spectrum.", "quantifier": "all programs of any length, all spectrums and arrays in memory (including overlapping views), all element-wise functions, slices, lengths, pivots, merge modes and contents of uninitialised memory", "why_tests_cant": "Tests compare the results of single operations; aliasing becomes visible only in combinations of operations, whose number is not limited.", "anchors": ["sumpf/_data/_spectrums/_spectrum.py: Spectrum.__getitem__", "sumpf/_data/_spectrums/_spectrum.py: Spectrum._algebra_function", "sumpf/_data/_spectrums/_spectrum.py: Spectrum._algebra_function_right", "sumpf/_data/_spectrums/_spectrum.py: Spectrum.pad", "sumpf/_data/_spectrums/_spectrum.py: Spectrum.conjugate", "sumpf/_blocks/_merge.py: Merge.output", "sumpf/_internal/_functions.py: allocate_array"]}
{"id": "C157", "title": "Programs, that process signals, do not depend on the absolute time", "statement": "If all signals, that a program works with, are moved by the same number of samples, then the program raises the same exceptions and has the same results, which are moved by that number of samples; this holds for programs that consist of slicing, padding, shifting by given distances in all modes, element-wise functions, arithmetic with signals and arrays, energy decay curves and merging. Levels over time move with the signal, reversed signals move into the opposite direction, concatenated signals move with the first of them, convolutions move by the sum and correlations by the difference of the movements of their operands.", "quantifier": "all programs of any length, all signals, distances (positive and negative), keys, lengths, pivots, merge modes, convolution modes and contents of uninitialised memory", "why_tests_cant": "Tests use few offsets, most often zero; an operation, that mixes up absolute and relative indices, gives the right results for them.", "anchors": ["sumpf/_data/_signals/_signal.py: Signal.__getitem__", "sumpf/_data/_signals/_signal.py: Signal._algebra_function", "sumpf/_data/_signals/_signal.py: Signal.shift", "sumpf/_data/_signals/_signal.py: Signal.convolve", "sumpf/_data/_signals/_signal.py: Signal.correlate", "sumpf/_data/_signals/_signal.py: Signal.level_vs_time", "sumpf/_data/_signals/_energy_decay.py: EnergyDecayCurve", "sumpf/_blocks/_merge.py: Merge.output", "sumpf/_blocks/_concatenate.py: Concatenate.output"]}
{"id": "C158", "title": "The results do not depend on the unit of time", "statement": "If the sampling rate and all frequencies are multiplied with the same positive factor and all times are divided by it, then the same exceptions are raised, the samples are the same, and the sampling rates, resolutions, frequencies and times of the results are converted to the new unit. This holds for sine and square waves, for the four kinds of sweeps (including their instantaneous frequencies), levels over time, reverberation times, Fourier transforms, short time Fourier transforms and the inverses of both. The responses of Butterworth, Bessel and Chebyshev filters depend only on the ratio of the frequency and the cutoff frequency, those of delays on the product of the frequency and the delay.", "quantifier": "all factors, frequencies, phases, intervals, sampling rates, lengths, integration times, windows, overlaps, orders, ripples, lowpasses and highpasses and all contents of uninitialised memory", "why_tests_cant": "Tests use few sampling rates; a formula with a missing or an additional sampling rate is right for a rate of 1 Hz, and a wrong constant with a unit can be compensated by the chosen numbers.", "anchors": ["sumpf/_data/_signals/_waves.py: SineWave", "sumpf/_data/_signals/_waves.py: SquareWave", "sumpf/_data/_signals/_sweep.py: LinearSweep", "sumpf/_data/_signals/_sweep.py: InverseExponentialSweep", "sumpf/_data/_signals/_signal.py: Signal.level_vs_time", "sumpf/_data/_signals/_signal.py: Signal.fourier_transform", "sumpf/_data/_signals/_signal.py: Signal.short_time_fourier_transform", "sumpf/_data/_signals/_energy_decay.py: EnergyDecayCurve.reverberation_time", "sumpf/_data/_filters/_butterworth.py: butterworth", "sumpf/_data/_filters/_bessel.py: bessel", "sumpf/_data/_filters/_chebyshev.py: chebyshev2"]}
{"id": "C159", "title": "Waves and sweeps can be generated in pieces", "statement": "A part of a sine or square wave is the wave of that length, whose phase is the one at the beginning of the part. A part of a linear or an exponential sweep is the sweep of the same kind between the instantaneous frequencies at the beginning and at the end of the part, if it is started with the phase at the beginning of the part (which is the given phase at the beginning of the interval); its instantaneous frequencies are those of the whole sweep at the same points in time. If the interval is given by indices, the samples of a sweep do not depend on the length of the signal.", "quantifier": "all frequencies, phases, intervals, sampling rates (except 0), lengths and parts, both implementations of the computation", "why_tests_cant": "Tests compare single signals with the same formula; they do not relate signals with different lengths and start frequencies to each other.", "anchors": ["sumpf/_data/_signals/_waves.py: SineWave", "sumpf/_data/_signals/_waves.py: SquareWave", "sumpf/_data/_signals/_sweep.py: LinearSweep", "sumpf/_data/_signals/_sweep.py: ExponentialSweep", "sumpf/_data/_signals/_sweep.py: Sweep.instantaneous_frequency"]}
{"id": "C160", "title": "Statistics of the parts of a signal", "statement": "When a signal is cut into two parts with slices, the statistical parameters of its channels follow from those of the parts: the mean values are the averages of those of the parts, weighted with their lengths. The variances are the weighted averages of those of the parts, plus the product of the shares of the lengths and the square of the difference between the mean values. The squares of the levels are the weighted averages of those of the parts.", "quantifier": "all signals, all positions of the cut, that do not result in an empty part", "why_tests_cant": "Tests compute the parameters of a few random signals; they do not relate the parameters of different signals to each other.", "anchors": ["sumpf/_data/_signals/_signal.py: Signal.mean", "sumpf/_data/_signals/_signal.py: Signal.variance", "sumpf/_data/_signals/_signal.py: Signal.level", "sumpf/_data/_signals/_signal.py: Signal.__getitem__"]}
{"id": "C161", "title": "Reversing signals commutes with processing them", "statement": "It makes no difference, if signals are reversed before or after functions of the samples or operators (for signals with the same sampling rate) are applied, or before or after they are convolved or correlated with each other (the correlation is reversed in its samples). Rotating a reversed signal is the same as reversing a signal, that has been rotated in the other direction. A slice of a reversed signal contains the reversed samples of the slice from the other end of the signal. For integration times of an integer number of sampling periods, the level over time of a reversed signal is the reversed level over time.", "quantifier": "all signals, all functions and operators, all slices with a given start and stop, all integer integration times for which the level over time is correct (see C54)", "why_tests_cant": "Tests check the reversal of a few signals; they do not combine it with the other methods.", "anchors": ["sumpf/_data/_signals/_signal.py: Signal.__reversed__", "sumpf/_data/_signals/_signal.py: Signal._algebra_function", "sumpf/_data/_signals/_signal.py: Signal.convolve", "sumpf/_data/_signals/_signal.py: Signal.correlate", "sumpf/_data/_signals/_signal.py: Signal.shift", "sumpf/_data/_signals/_signal.py: Signal.__getitem__", "sumpf/_data/_signals/_signal.py: Signal.level_vs_time"]}
{"id": "C162", "title": "Complex parts of the results of operators with spectrums", "statement": "The conjugate of a sum, a difference, a product or a quotient of two spectrums is the same as that of their conjugates. The absolute value of a product or a quotient of two spectrums is the same as that of their absolute values, and the absolute value of a sum does not exceed the sum of the absolute values. In general, every function of the samples, that is compatible with an operator for two numbers, can be applied before or after the operator. This holds for different numbers of channels, too.", "quantifier": "all spectrums with the same number of bins, all numbers of channels, all contents of the allocated memory", "why_tests_cant": "Tests check the conjugate and the operators separately with a few spectrums.", "anchors": ["sumpf/_data/_spectrums/_spectrum.py: Spectrum.conjugate", "sumpf/_data/_spectrums/_spectrum.py: Spectrum.__abs__", "sumpf/_data/_spectrums/_spectrum.py: Spectrum._algebra_function"]}

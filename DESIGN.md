# A formal model of SuMPF in Lean 4

Source: `/repo` (JonasSC/SuMPF, python, read as text). Model and theorems: `/verif/lean/Verif`.
Properties: `/verif/properties.jsonl`. Status per property: `/verif/MANIFEST.json`.

## 1. How the model is built

* Shallow, executable-style functions that mirror the python functions branch by branch. Every
  definition cites the file and the lines it models. Python exceptions are values
  (`Except PyExc _`), so "this call raises" is a statement of the model and not a totalised value.
* `numpy` arrays are modelled in `Verif/Numpy.lean`: a matrix is a shape plus a function from
  row and column to the element. Slicing resolves negative and out-of-range bounds like python
  does, assignments and ufuncs with `out=` check numpy's broadcasting rule and raise `ValueError`.
* Freshly allocated memory (`allocate_array`, `numpy.empty`) is an arbitrary, universally
  quantified matrix. A theorem that determines all elements of a result therefore shows that no
  uninitialised memory is exposed.
* Samples are elements of an arbitrary type wherever the property permits it, and binary
  operators are arbitrary functions. Such theorems cover IEEE floats as well. Where algebra is
  needed (convolution, energy, filters, sweeps), samples are elements of a commutative ring,
  of `ℝ` or of `ℂ`: this idealises floating point arithmetic as exact and is stated in the
  respective file.
* Every area has a model file, where necessary a lemma file, and a `…Props.lean` file with
  the property theorems and their specification. Beside each theorem is an `example` with a concrete
  non-trivial instance of its hypotheses.
* If the code violates a property, the negation is proved with a concrete witness (theorem name
  contains `_violated`), and the property is proved for the inputs where it holds (suffix `_partial`).

## 2. Plan per property

| id | model | proof |
|----|-------|-------|
| C01 | `sanitize_labels` on lists | list lemmas |
| C02 | `index` with the `while i < 0` loop as a step relation / fuelled loop | termination measure; non-termination witness for length 0 |
| C03 | `key_to_slices`, python slice resolution | case analysis against a separate spec of python indexing |
| C04 | `Signal.__getitem__` | integer arithmetic on slice bounds |
| C05 | `Signal.pad`, `Spectrum.pad`, `Spectrogram.pad` | pointwise evaluation of slice assignments for arbitrary memory |
| C06–C08 | `Signal.shift` in all modes | as C05; violations: PAD with negative shift, CYCLE with a shift beyond the length |
| C09 | `Signal.__reversed__` | involution; violation of the documented offset |
| C10–C12, C14 | `Signal._algebra_function` and its helpers | refinement to a pointwise partial-function spec, laws derived from the spec |
| C13 | `__eq__`, `__hash__` | equivalence relation, congruence of the hash for any hash function |
| C15 | `Spectrum._algebra_function` | as C10 |
| C16 | `Spectrogram._algebra_function` | as C10 with a second axis |
| C17–C21 | `_convolution.py` with numpy's `convolve` as finite sum; `rfft`/`irfft` products as circular convolutions, the latter justified by the DFT convolution theorem | finite sums over commutative rings |
| C22 | `Concatenate` as fold over the sorted inputs | refinement to the sum of delayed signals |
| C23, C24 | `Merge` with its index generator and the ordered dictionary | permutation of channels, induction over histories |
| C25 | `on_process` as a state machine over a list of block sizes | invariant; violation witness |
| C26 | doubling loop of `RudinShapiroNoiseSpectrum` | loop invariant against the closed form |
| C27 | `Fade` | refinement to the product/sum of two slopes |
| C28 | `EnergyDecayCurve` | cumulative sums over `ℝ` |
| C29 | `_interpolation.py` | exactness at supporting points, nearest point |
| C30 | index arithmetic of the block-wise transform, offset compensation of the STFT | coverage; violations |
| C31, C32, C34, C35 | filter terms as inductive type, factories and operators as functions | structural induction against a denotation over `ℂ` |
| C33 | `S.fix` with its hidden state | state-passing evaluator; violation at 0 Hz |
| C36 | `Filter.__algebra_function` | lists |
| C37 | Butterworth polynomial factors | factorisation of `1 + x^(2n)` over `ℂ` |
| C38 | Bessel coefficients | divisibility |
| C39–C41 | delay, derivative, weighting, dB conversion | `ℂ`/`ℝ` analysis lemmas |
| C42, C43 | `Window.__init__`, `scaling_factor`, Hann | lists, trigonometry |
| C44, C45 | sweeps, `harmonic_impulse_response` | `ℝ`; state passing for the in-place update |
| C46, C47 | `read_file`, `get_writer`, `AutoWriter` | state machine with caches, induction over histories |
| C48 | `counting_number` on decimal digit strings | digits |
| C49 | chunked interleaving and quantisation | induction on chunks |
| C50 | `from_rows` and the writers | arithmetic over `ℚ`/`ℝ` |
| C51 | `TableWriter.__call__` | invariant of the fold over channels |
| C52 | lengths and rates of the transforms, DFT as abstract inverse pair | arithmetic |
| C53 | `MaximumLengthSequence` parameters | `Nat.clog` |
| C54 | `level_vs_time` window arithmetic | finite sums |
| C55, C56 | port names, stored connections | induction |
| C57 | `on_xrun` | unfolding; violated: unit of the delay |
| C58 | `reverberation_time` with an arbitrary least squares solver | uniqueness of the minimum |
| C59 | `overlap_correlation`, `flatness` | pointwise evaluation of the loops |
| C60, C61 | evaluation of filters at 0 Hz, `Filter.__getitem__` | induction on terms; lists |
| C62, C63 | Chebyshev filters | factorisation by the roots of the Chebyshev polynomials |
| C64 | construction of `Bands` filters | lists |
| C65 | `from_rows` of the tables | arithmetic on the axis |
| C66 | JSON and NPZ containers | round trip, characterisation of the failures |
| C67 | block-wise transform of the whole signal | sums over segments |
| C68, C69 | STFT and its inverse with scipy's documented results | overlap-add, DFT inversion |
| C70 | frequency range of sweeps | monotonicity over `ℝ` |
| C71 | `apply_delay` | phases of the DFT |
| C72 | `Signal.level` against `level_vs_time` | sums of squares |
| C73, C74 | `Spectrogram._algebra_function` with signals and spectrums | equality with C16's function for the repeated data |
| C75, C76, C78, C79 | `WindowsScipy.lean` (scipy's window functions) | one function `shape(t)` per window, from which the samples are taken |
| C77 | spectrum of the shape as an integral over one window length | `f^(2n+1)·W(f)` is computed exactly with a geometric sum; the first non-vanishing alternating moment of the coefficients determines the decay |
| C80 | `Window.bandwidth`, `Window.scalloping_loss` with the DFT of the padded window | DTFT at arbitrary frequencies, geometric sum for the rectangle |
| C81 | `Window.recommended_overlap`, `argmax` as a loop | invariant of the loop, C59 |
| C82, C83 | `Waves.lean` | samples in closed form, sums of roots of unity |
| C84, C85 | `Spectrogram.pad`, `shift` | each bin corresponds to a signal, then C05 to C08 |
| C86–C88 | `SpectrogramMore.lean` | as for signals (C04, C13, C14) |
| C89 | `time_samples`, `frequency_samples`, `duration` | arithmetic of `linspace` |
| C90 | `ComplexParts.lean` | complex numbers of Mathlib, C15 |
| C91 | `Spectrum.level` | Parseval's theorem for the half spectrum, C52 |
| C92 | `Inverse.lean` | invertibility of the discrete Fourier transform, C52, C17–C21 |
| C93 | `FilterApply.lean` | transform of sinusoids and rotations, C36, C52, C74 |
| C94 | `Statistics.lean` | sums over finite sets, C72 |
| C95 | `JackConnections.lean` | induction over the list of connections |
| C96 | `Regex.lean`, `BandsText.lean` | lists of all remainders of a regular expression in the order of backtracking; all remainders but the first start within a number |
| C97 | `AudioRates.lean` | bounds of rounded numbers |
| C98 | `Noise.lean` | numpy's generator as a parameter with a contract; case distinction over the classes |
| C99 | `ConvolutionOther.lean` | kernels of the convolution for one sample |
| C100 | `PyExpr.lean`, `TermRepr.lean` | a printing relation between texts and expressions, that is proved for the lexer and the parser once and composed for each kind of term |
| C101 | `DataRepr.lean` | as C100; arrays as shape and elements in row-major order |
| C102 | `Rolloff.lean`, `Weighting.lean` | the terms are evaluated with an arbitrary complex number as frequency variable; a pole is a division by zero |
| C103 | `ConvolutionLawsProps.lean` | finite sums over all integers (`finsum`), associativity by reordering a double sum; the model of C17 and C20 |
| C104 | `FourierLawsProps.lean` | the values of the transform as finite sums over all times; the convolution theorem from the associativity of the convolution (C103) with an exponential function |
| C105 | `JoinProps.lean` | slices with non-negative integers as cuts (`IsCut`); the sum of delayed signals from C22 splits at every block; the positions from C23 for the groups of channels |
| C106 | `PowMod`, `PowModProps` | number-wise laws of `numpy.power` and `numpy.mod`, lifted to the samples with the results of C10, C14, C15 and C88 |
| C107 | FilterLawsProps | linearity, commuting, cascades, inverses from C93 and C36; the impulse response from the inverse of a product of transforms; superposition and time invariance from the convolution |
| C108 | EvaluationLawsProps | the level over time in all branches is a factor times the root of a weighted sum of squares, from which the gain, the triangle inequality and the monotonicity follow; the minimum of the squared error from the linear part of a quadratic function, which is nowhere negative |
| C109 | SpectraProps | the spectrum as a function of the frequency in Hz, which does not mention the length of the transform; sums of roots of unity for repeated signals and sine waves |
| C110 | MlsRegister, MlsLfsr, MlsPeriodProps | polynomials over the field with two elements, encoded as natural numbers, act on the sequences; the order of the variable modulo each polynomial is certified with the prime factors of 2^n - 1; shift and add; the power spectrum as the transform of the cyclic autocorrelation |
| C111 | `RudinShapiro`, `Fourier`, `SpectrumLevel`, `CrestProps` | peak value and level of the time signal of Rudin-Shapiro noise |
| C112 | `Files`, `FilesProps` | the registries of `Persistence` with the modelled readers and writers: the cache of writers is coherent after each series of calls, so the writer is known; all readers, that accept a file, return the same data set |
| C113 | `WindowsChebyshev`, `WindowsChebyshevProps` | the samples of the window are the coefficients of a polynomial Q with T_n(b cos x) = exp(-inx) Q(exp(2ix)); these are positive for b > 1 and the transform in `chebwin` recovers them from the samples of the Chebyshev polynomial. The bounds are those of the Chebyshev polynomials, the optimality is their extremal property |
| C114 | `WindowsSlepian`, `WindowsSlepianProps` | the eigenvector of the largest eigenvalue of a symmetric tridiagonal matrix with a positive off-diagonal has no changes of its sign, because its absolute values maximize the quadratic form, too; it is unique and a palindrome because of the three term recurrence; the products of the off-diagonal and the differences of neighbouring samples show, that it is unimodal; the sum in the correction for even lengths is an alternating sum of decreasing values |
| C115 | `WindowsSlepianOptimalProps` | Slepian window: largest share of the energy in the main lobe, smallest ratio of side lobe to main lobe energy, uniqueness, no zeros in the main lobe |
| C116 | `BesselDelayProps` | the derivative of the reverse Bessel polynomials and the determinant of consecutive polynomials give an exact formula for the group delay; the squared magnitude is a polynomial with positive coefficients, which follows from a recursion of its derivative |
| C117 | `SweepHarmonicsProps` | the phase is an affine function of the instantaneous frequency, which is an exponential function; Chebyshev polynomials; C45 for the samples, that are cut out |
| C118 | `WindowsUnimodalProps` | the shapes of C78 fall with the distance from the centre: sums of cosines are polynomials of a cosine with non-negative coefficients around -1, the derivative of the Bohman window, case distinction for the Parzen window |
| C119 | `ChebyshevOptimalProps` | extremal property of the Chebyshev polynomials (Mathlib) for the attenuation as a polynomial of the squared frequency; polynomials, that are bounded by a power near zero, are divisible by it |
| C120 | `StftLawsProps` | the values of `C30_stft` and `C68_offset` as one structure; linearity of the segments; orthogonality of the roots of unity for tones and Hann windows; Parseval for each segment and exchange of the sums |
| C121 | `InterpolationLawsProps` | the interpolated value is given by every pair of neighbouring points, that can be used (`linear_on`); monotonicity by going from point to point; the bound of the slope follows from the monotonicity of the sum with a line; logarithmic interpolations as linear interpolations of logarithms |
| C122 | JoinLawsProps.lean | the specifications of C22 and C23 determine the joined data; related inputs lead to related specifications; `Fourier.isTransform` |
| C123 | SlopeProps.lean | limits of quotients of polynomials (`Polynomial.div_tendsto_atTop_leadingCoeff_div_of_degree_eq`) with the magnitudes from C37, C40, C62, C63 and C116 |
| C124 | JackSession, JackSessionProps | state machine of an instance with the callbacks as events; invariants by induction on the sequence of callbacks; recordings by reduction to C25 and C95 |
| C125 | Harmonic, HarmonicLawsProps | closed form of the samples of the result; linearity of the real Fourier transform, its inverse and zero padding |
| C126 | Describe, DescribeProps | texts as lists of characters; uniqueness by splitting at the delimiters and injectivity of the digits |
| C127 | HermitianProps.lean | realness of the numbers in a term as an inductive predicate; induction over the terms for the values, over the recursion depth for the operators; explicit values for the weighting filters |
| C128 | OrderLimitProps.lean | linear lower bound for the Chebyshev polynomials; product formula for the relative coefficients of the Bessel polynomials and dominated convergence of the power series |
| C129 | BandsAlgebraProps.lean | each interpolation is an index, a constant, a point on a line or the exponential of a point on a line through logarithms; exchangeability of the operators with each of these |
| C130 | FadeLawsProps.lean | the samples of the fades (C27) and of the windows (C42) are compared with each other; the operators for signals of the same time range reduce to operations on the samples |
| C131 | JackMeasurementProps.lean | the stream of the output buffers is the signal (C25), therefore the input buffers contain the responses to the signal; comparison with the full convolution (C17); a closed loop is constructed for all systems |
| C132 | FourierLawsProps, InverseProps, JackMeasurementProps, DeconvolutionProps | composition of the convolution, the Fourier transforms, the division of spectrums and the recording |
| C133 | CorrelationLawsProps | Cauchy-Schwarz for the values of the correlation (C20) and the laws of the Fourier transform (C104) |
| C134 | WeightingShapeProps | the squared magnitudes of C40 as products of poles; Hölder's inequality for each pole |
| C135 | SynthesisProps | the hermitian symmetry of numpy's irfft turns the sum of its terms into a real trigonometric polynomial |
| C136 | FilterLevelProps | the energy of the filtered signal with Parseval's theorem and the hermitian spectrum of the inverse transform; bounds of the magnitudes of the rolloff filters from C37, C38, C62, C63 |
| C137 | WeightingTable, WeightingTableProps | rational interval arithmetic for the squared magnitudes, certificates with the 200th powers of rounded bounds, concavity for the frequencies between those of the table |
| C138 | FilterWaveProps | delay and derivative filters act on the trigonometric interpolation of a signal: uniqueness of the interpolation, fractional delays, values of the derivative |
| C139 | FilterPhase, FilterPhaseProps | the unwrapped phase of the rolloff filters: uniqueness, monotonicity, limits, symmetry of Butterworth filters |
| C140 | CrossoverProps | The phases of the two filters differ by 90 degrees times the order (from C139), their magnitudes are complementary (C37); the sums, differences and products are the ones of the model of the operators of the filters. |
| C141 | StepSlice, StepSliceProps | A second model of the operator `[]` with steps and tuples of any length, which agrees with the models of the other properties where those apply. The selected indices are compared to the specification of slices in the documentation of python. |
| C142 | ConvolutionBoundsProps | Interchange of the double sum over all pairs of samples (weighted sums), from which sums and moments follow; Cauchy-Schwarz with the weights |h| for the energy; the time-reversed signs of the impulse response reach the bound of the peak. |
| C143 | TestSignalStatisticsProps | The averages of the first four powers of the samples determine all parameters; trigonometric sums for the sine wave, antiperiodicity for the square wave and the balance (C110) for the maximum length sequence. |
| C144 | TermArrays.lean, TermArraysProps.lean | model of the memory with arrays, that have addresses; invariant of the stored arrays of the `S` instance; induction over the nested terms, which shows that a result is in the given array or a new one, that it has the values of the pointwise evaluation of `Filter.lean` and that nothing else changes |
| C145 | Rounding.lean, RoundingProps.lean | rounding of rational numbers to 53 bits on top of `pyRound`; relative error, exactness for integers and halves; error analysis of the computations; witnesses with concrete floating point numbers |
| C146 | Memory.lean, MemorySim.lean, MemoryProps.lean | simulation relation between computations with a heap and computations with values; rules for sequences, loops, slice assignments and element-wise functions; induction over programs |
| C147 | RoundedSamples.lean, RoundedSamplesSums.lean, RoundedSamplesProps.lean | type of floating point numbers with rounding operators, for which the generic models of the energy decay curve and of the operators are used; rounding is odd, monotone and idempotent; error growth of sums in arbitrary order |
| C148 | `JackThreads.lean`, `JackThreadsSpec.lean`, `JackThreadsInv.lean`, `JackThreadsProps.lean` | small-step semantics of the two threads; an invariant relates every reachable state to the sequential model of `Jack.lean`, with a history of the blocks; violations by evaluating interleavings |
| C149 | DataTypes.lean, DataTypesProps.lean, DataTypesSpectrogramProps.lean | data types with kinds and sizes, the rules of numpy for combining and storing them, and the allocation of memory in units of 8 bytes |
| C150 | Caching.lean, CachingProps.lean | stored results of output connectors; equivalence of instances with and without stored results for all sequences of calls |
| C151 | Numbers.lean, NumbersProps.lean | equality and hashes for integers, floating point numbers, infinities and NaN |
| C152 | MlsMeasurementProps.lean | measurement of impulse responses with maximum length sequences: sequence, convolution and correlation combined |
| C153 | EmptyProps.lean | signals without samples in padding, Fourier transform, sums, convolutions and correlations |
| C154 | StftLeastSquaresProps.lean | the inverse transform is the adjoint of the transform with respect to the weighted bins, so the distance is a quadratic function of each sample, whose minimum is the quotient, that scipy computes |
| C155 | LocalityProps | pairs of signals that agree at some times: energy decay curve, convolutions, correlations, level over time, short time Fourier transform and its inverse agree where only these times are needed; causality |
| C156 | MemorySpectrum, MemorySpectrumProps | spectrums with arrays in memory; programs of operations on spectrums have the same results as with immutable values; which operations share buffers and which do not; writing to arrays |
| C157 | TimeShiftProps | equations between the results for signals and for moved signals, for each function and by induction for programs |
| C158 | UnitsProps, UnitsFilterProps | conversion to another unit: equations between the functions of the model; the responses of the filters are functions of the relative frequency |
| C159 | PiecesProps | uniqueness of the phase and of the instantaneous frequency with the differential equations of C44 |
| C160 | StatisticsPartsProps.lean | mean values, variances and levels of signals from those of their parts |
| C161 | ReversalProps.lean | reversed values with C09, substitution in the sums of the convolution and of the level over time |
| C162 | ComplexLawsProps.lean | comparison of the samples of both results with C15 |

## 3. Trusted base

### 3.1 Kernel and axioms

Lean 4.33.0's kernel and the definitions of Mathlib. No own axioms, no `sorry`, no `native_decide`, no `bv_decide`.
The axioms of every theorem in the manifest, as printed by `#print axioms`, are listed in the appendix of this file.
None uses anything else than `propext`, `Classical.choice` and `Quot.sound`.

### 3.2 Parts of the code, that are modelled

| part of `/repo/sumpf` | model |
|---|---|
| `_internal/_functions.py`, `_indexing.py`, `_interpolation.py`, `_text.py`, `_convolution.py` | `Convolution`, `Indexing`, `Signal` (`sanitize_labels`), `Interpolation`, `Text`, `Windows` (`scaling_factor`), `Blockwise` (`get_window`) |
| `_data/_signals/_signal.py` | `Signal`, `SignalAlgebra`, `Fourier`, `Blockwise`, `Stft`, `Level`, `Inverse`, `Statistics`, `ConvolutionOther`, `DataRepr` |
| `_data/_signals` (windows, noise, fades, sweeps, MLS, energy decay) | `Windows`, `WindowsScipy`, `WindowsChebyshev`, `WindowsSlepian`, `WindowMeasures`, `Waves`, `Noise`, `Fade`, `Sweep`, `Harmonic`, `Mls`, `MlsRegister` (the shift register of scipy), `EnergyDecay`, `Reverberation` |
| `_data/_spectrums` | `Spectrum`, `SpectrogramMore`, `ComplexParts`, `SpectrumLevel`, `RudinShapiro`, `Fourier` |
| `_data/_spectrograms` | `Spectrogram`, `SpectrogramMore`, `SpectrogramMixed`, `ComplexParts`, `Stft` |
| `_data/_filters` | `Term`, `TermJson`, `TermRepr`, `Filter`, `FilterApply`, `Rolloff`, `Weighting`, `BandsFilter`, `BandsTable` |
| `_blocks` (concatenate, merge, jack) | `Concatenate`, `Merge`, `MultiInput`, `Jack`, `JackConnections` |
| `_internal/_persistence` | `Persistence`, `Files`, `AudioFile`, `Table`, `Container`, `TermJson`, `BandsTable`, `Regex`, `BandsText`, `PyExpr`, `TermRepr`, `AudioRates` |

### 3.3 Parts, that are not modelled or idealised

* Floating point rounding, overflow and NaN, except where the sample type is arbitrary. `inf` and division by zero are
  exceptions or excluded by a hypothesis; each file says which.
* The FFT is replaced by the sum that defines the discrete Fourier transform.
* The packages outside of the repository are described by their documented results: numpy's slicing, broadcasting,
  ufuncs, `convolve`, `interp`, `searchsorted`, `linalg.lstsq` (any minimiser), `rfft`/`irfft`; scipy's `max_len_seq`,
  `stft` and `istft`; `json` and `numpy.savez`/`load`; `connectors.MultiInputData` (an ordered dictionary whose `add`
  returns an unused key); the JACK server (buffers have the length of the block).
* Conversion between numbers and text in CSV tables of signals and spectrums, headers of audio files, the soundfile back end, multi-threading in
  `Jack`, the connections of the `connectors` package (laziness and caching), windows' plots, and everything that is
  only re-exported.
* Recursion depth of python: the functions on filter terms have a fuel parameter; running out of fuel is the value
  `RecursionError`, no statement assumes that it cannot happen.
* File readers and writers are deterministic functions of the file's content.

## 4. Disagreements between code and documentation

Each entry is the statement of a theorem with a concrete witness. The properties are proved for the other inputs in the
theorems with the suffix `_partial`. `C11_mixed_channels_violated` is a limit of a property, which is outside of its
statement.

* `C02_termination_violated` (`IndexingProps.lean`): C02 is violated for empty axes: the normalisation of a negative index never terminates (e.g. a negative `overlap` or interval bound together with the length 0).
* `C03_empty_axis_violated` (`IndexingProps.lean`): A float key on an empty axis makes the key conversion run forever (e.g. `signal[0.7]` for a signal without channels): `index` is called with the length -1.
* `C03_last_element_violated` (`IndexingProps.lean`): C03 is violated for the key -1: python selects the last element, SuMPF selects nothing.
* `C04_violated` (`SignalProps.lean`): C04 is violated if the start of the time slice is below `-length`: numpy returns the samples from the first one on, but the offset is reduced, so that all samples move to an earlier time.
* `C07_negative_violated` (`SignalProps.lean`): C07 is violated for negative shifts in the mode PAD: the samples are not moved by the shift; the signal keeps its first samples and the zeros are not inserted where the shift demands them.
* `C08_large_shift_violated` (`SignalProps.lean`): C08 is violated for shifts, which are longer than the signal: the samples stay, where they were, instead of being rotated.
* `C09_negated_time_violated` (`SignalProps.lean`): C09 is violated: the reversed signal is not the original signal at negated times.
* `C10_zero_channels_violated` (`SignalAlgebraProps.lean`): C10 is violated for a signal without channels: the operator raises an exception.
* `C11_mixed_channels_violated` (`SignalLawsProps.lean`): The associativity of the addition is violated for signals with one, two and three channels: the channel of the one-channel signal is added to the third channel in only one of the two expressions.
* `C12_assoc_violated` (`SignalLawsProps.lean`): C12 is violated if there is a gap: it is filled with zeros, which take part in the next product.
* `C13_nan_violated` (`SignalLawsProps.lean`): C13 is violated if a signal contains NaN (a sample that is different from itself): `s == s` is false.
* `C15_one_bin_violated` (`SpectrumProps.lean`): C15 is violated if the second spectrum has only one bin: its value for 0 Hz is combined with all bins of the first spectrum.
* `C16_zero_channels_violated` (`SpectrogramProps.lean`): C16 is violated for one channel and zero channels with different shapes: the computation fails.
* `C23_empty_dataset_violated` (`MergeProps.lean`): C23 is violated by the mode `FIRST_CHANNELS_FIRST`, when there is a signal without channels: merging it with a signal, that has two channels, raises an `IndexError`.
* `C25_continues_violated` (`JackProps.lean`): C25: the exact extent of the violation: whenever a block, which is not the first one, contains the end of the signal in its middle, the playback continues at the number of the samples, which have been left for this block, instead of ending.
* `C25_replay_violated` (`JackProps.lean`): C25 is violated, when the length of the signal is not a multiple of the size of the blocks: the signal with the samples 1, 2, 3 is played in blocks of two frames. After its end, the samples 2 and 3 are played again, and the samples, that have been recorded, are overwritten.
* `C26_negative_stop_violated` (`RudinShapiroProps.lean`): C26 is violated by negative stop frequencies: the samples are not zero, but the content of uninitialised memory.
* `C27_overlap_violated` (`FadeProps.lean`): C27 (violation): In a fade out-in, whose slopes overlap, the samples can be greater than one.
* `C30_short_violated` (`BlockwiseProps.lean`): C30 is violated for signals, that are shorter than the window: the samples of the following signal are not processed, so that its transform is zero, although padding is requested.
* `C31_bands_violated` (`TermProps.lean`): C31 is violated by bands: The sum of two bands, that are interpolated with ones, is interpolated with ones, although the sum of the values is two.
* `C31_linear_bands_violated` (`TermProps.lean`): C31 is violated by bands: The product of two bands, that are interpolated linearly, is interpolated linearly, although the product of the values has a quadratic shape.
* `C31_zero_bands_violated` (`TermProps.lean`): C31 is violated by products with bands: bands, that are interpolated with ones, are considered to be zero, when their supporting points are zero, so a product with them is replaced by zero, although their value is one.
* `C32_difference_violated` (`TermProps.lean`): C32 is violated by differences: with `transform=True` and a minuend, that is zero, the transform is forgotten.
* `C32_invert_transform_violated` (`TermProps.lean`): C32 is violated by differences: `invert_transform` of a difference, which is the result of a subtraction, does not change the transform, if the minuend is zero.
* `C33_zero_hertz_violated` (`FilterProps.lean`): C33 is violated at 0 Hz: the value of the constant one depends on being before or after a channel with a transform.
* `C34_empty_bands_violated` (`TermProps.lean`): C34 is violated: bands without supporting points are equal to bands with one supporting point, because comparing an empty array to an array with one element has no elements, that are not equal.
* `C34_exception_violated` (`TermProps.lean`): C34 is violated: comparing bands with different numbers of supporting points raises a ValueError.
* `C34_symmetry_violated` (`TermProps.lean`): C34 is violated: the constant zero is equal to a polynomial, whose coefficients are zero, but not the other way round. Such a polynomial is the difference of two equal polynomials.
* `C34_values_violated` (`TermProps.lean`): C34 is violated: bands, whose supporting points are zero, are equal to the constant zero, although the value between the supporting points is one.
* `C35_complex_violated` (`TermJsonProps.lean`): C35 is violated: filters with complex coefficients cannot be saved.
* `C42_odd_rest_violated` (`WindowsProps.lean`): C42 (violation): If the rest of the signal has an odd length, the plateau has one sample more than requested and than the method `plateau` returns.
* `C45_length_violated` (`HarmonicProps.lean`): C45 is violated: if the harmonic impulse response has not more samples than channels, it is not cropped to the requested length, because its length is compared with the number of channels in line 217.
* `C45_unmodified_violated` (`HarmonicProps.lean`): C45 is violated: without a specified length, the computation of the second harmonic changes the samples of the given impulse response.
* `C46_remember_violated` (`PersistenceProps.lean`): C46: The successful readers are never remembered, because new lists of readers are not stored in the dictionary.
* `C47_content_violated` (`PersistenceProps.lean`): C47: The writers, that are remembered, can change the format of the file. The same data set is saved in the first format in a new session and in the second format, after another data set had to be saved in the second format.
* `C47_missing_library_violated` (`PersistenceProps.lean`): C47: The documentation of `save` says, that a `ValueError` is raised, if the file cannot be written because of a missing library. With the format `AUTO`, it is an `ImportError`.
* `C47_other_exceptions_violated` (`PersistenceProps.lean`): C47: If a remembered writer raises another exception than `ValueError`, the other formats are not tried. So a data set, that can be saved in a new session, cannot be saved any more.
* `C50_empty_violated` (`TableProps.lean`): C50 is violated: Every signal without samples is loaded as an empty signal with one channel, the default sampling rate and no offset.
* `C50_one_bin_violated` (`TableProps.lean`): C50 is violated: The resolution of every spectrum with one bin is replaced by zero.
* `C50_one_sample_violated` (`TableProps.lean`): C50 is violated: The sampling rate of a signal with one sample is lost.
* `C51_negative_frequency_violated` (`BandsTableProps.lean`): C51: Channels with negative frequencies can be written to a text table, but not be read from it.
* `C51_no_channels_violated` (`BandsTableProps.lean`): C51: A filter without channels cannot be restored from a NPY or a NPZ file. A channel is read from the NPY file and reading the NPZ file raises an exception.
* `C51_short_line_violated` (`BandsTableProps.lean`): C51: The documentation of `TableReader` says, that lines with less columns than other lines define values for the first channels only, but reading such a file raises an `AttributeError`.
* `C53_one_bit_violated` (`MlsProps.lean`): C53 (violation): A signal with the length one (or zero), for which no number of bits is given, can not be created, whatever the random generator draws.
* `C53_seed_violated` (`MlsProps.lean`): C53 (violation): Even the seeding fails for one bit, if the random generator does not set it.
* `C54_constant_violated` (`LevelProps.lean`): C54 is violated for signals with `h + 1` samples, if the outermost samples of the window are not completely inside the interval: the level is constant.
* `C54_corner_violated` (`LevelProps.lean`): C54 is violated for integration times, that are not an integer multiple of the sampling period: the outermost samples get the weight of the part, that is not inside the interval. The level of a constant signal is wrong in its middle.
* `C54_memory_violated` (`LevelProps.lean`): C54 is violated for signals with `2 * h + 1` samples without padding: the correction of the sample in the middle is not initialised.
* `C56_ambiguous_name_violated` (`JackProps.lean`): C56 is violated by the short name of a port of another client: the connection to the port `y:a` is dropped, when the port `x:a` is removed.
* `C56_negative_index_violated` (`JackProps.lean`): C56 is violated by negative indices: the connection to the last port is kept, when this port is removed, and then refers to another port.
* `C57_delay_violated` (`JackProps.lean`): C57 is violated: the delay is not converted to seconds.
* `C60_sum_violated` (`FilterProps.lean`): C60 is violated: the sum of a constant and a transformed term is zero at 0 Hz, although the value of the constant is one and that of the transformed term is zero.
* `C63_zero_hertz_violated` (`Chebyshev2Props.lean`): C63: The magnitude of a highpass with an even order tends to the attenuation of the stop band, when the frequency tends to zero, but the value at 0 Hz is zero.
* `C65_negative_error_violated` (`TableProps.lean`): C65 is violated: If the table starts more than one bin below 0 Hz, a `ValueError` is raised.
* `C65_negative_violated` (`TableProps.lean`): C65 is violated: If the table starts one bin below 0 Hz, all bins are filled with the last sample.
* `C66_empty_spectrogram_violated` (`ContainerProps.lean`): C66 is violated: The channels of all empty spectrograms have two instead of three dimensions after loading them from JSON.
* `C66_empty_spectrum_violated` (`ContainerProps.lean`): C66 is violated: All spectrums without channels or without bins have one channel after loading them from JSON.
* `C66_no_channels_violated` (`ContainerProps.lean`): C66 is violated: A signal without channels can be saved as JSON, but not be loaded.
* `C66_npz_hash_spectrum_violated` (`ContainerProps.lean`): C66 is violated: No spectrum, that has been loaded from an NPZ file, can be hashed.
* `C66_npz_hash_violated` (`ContainerProps.lean`): C66 is violated: Signals, that have been loaded from an NPZ file, cannot be hashed, although they are equal to the hashable signal, that has been saved.
* `C68_phase_violated` (`StftProps.lean`): C68 is violated: the phases of an impulse, whose offset is not a multiple of the step size, do not have the documented delay. In line 560 of `_signal.py`, the maximum frequency is computed for all bins of a full spectrum, but only the bins up to the half of the sampling rate are computed.
* `C71_delay_violated` (`HarmonicProps.lean`): C71 is violated for odd numbers of samples: the cosine with three samples and the sampling rate 3 Hz is advanced by a quarter of its period instead of half a sample, because the last bin's frequency is considered to be the half of the sampling rate.
* `C73_zero_channels_violated` (`SpectrogramMixedProps.lean`): C73 is violated for one channel and zero channels with the same time range: the channel of the spectrogram is lost.
* `C74_zero_channels_violated` (`SpectrogramMixedProps.lean`): C74 is violated for one channel and zero channels: the channel of the spectrogram is lost.
* `C75_parzen_ends_violated` (`WindowsScipyProps.lean`): C75 is violated by the Parzen window: its documentation says, that it reaches zero at its ends, but the first sample of a window with `M` samples is `2/M^3`.
* `C76_single_sample_violated` (`WindowsScipyProps.lean`): C76 is violated for flat top windows with one sample: the sample is not one, but the reciprocal of the sum of the coefficients (e.g. 0.24 for FTHP).
* `C77_hft169d_violated` (`WindowsDecayProps.lean`): C77 is violated by the flat top window HFT169D: the alternating sum of its rounded coefficients is 2e-8 instead of zero, so that its side lobes decay with 6 instead of 18 dB per octave.
* `C78_parzen_violated` (`WindowsShapeProps.lean`): C78 is violated by the Parzen window: the first sample of the window with three samples is 2/27, the one of the window with five samples is 2/125.
* `C80_bandwidth_violated` (`WindowMeasuresProps.lean`): C80 is violated for windows with one sample: the magnitude of the spectrum never drops below -3 dB and the bandwidth is infinite (division by zero).
* `C84_negative_violated` (`SpectrogramShiftProps.lean`): C84 is violated for negative shifts in the mode PAD: the values are not moved.
* `C84_large_shift_violated` (`SpectrogramShiftProps.lean`): C84 is violated for shifts in the mode CYCLE, which are longer than the spectrogram: the values are not rotated.
* `C86_violated` (`SpectrumSliceProps.lean`): C86 is violated, if the start of the time slice is below `-length`: the values from the first one on are returned, but the offset is reduced.
* `C91_one_bin_violated` (`SpectrumLevelProps.lean`): C91 is violated for spectrums with one bin: it is counted as first and as last bin, so the level is too large by a factor of √2.
* `C91_complex_violated` (`SpectrumLevelProps.lean`): C91 is violated, if the first bin is not real: its imaginary part counts for the level, although no signal contains it.
* `C91_odd_violated` (`SpectrumLevelProps.lean`): C91 is violated for signals with an odd length: the level of the transform of `1, 0, 0` is `√2 / 2` instead of `1 / √3`.
* `C92_odd_violated` (`InverseProps.lean`): C92 is violated for signals with odd lengths: the convolution of `2, 1, 0` with its inverse in the mode SPECTRUM is `8/9, 0, 0`.
* `C92_default_mode_violated` (`InverseProps.lean`): C92 is violated with the default mode FULL of the convolution.
* `C92_padding_violated` (`InverseProps.lean`): C92 is violated for `1, 1, 0`, which has a cyclic inverse, while the computed one is not finite.
* `C93_odd_violated` (`FilterApplyProps.lean`): C93 is violated for signals with odd lengths: a filtered signal with three samples has two samples and another sampling rate.
* `C95_channels_violated` (`JackConnectionsProps.lean`): C95 is violated, if the new signal does not have the channel of a connected port: `input` raises an `IndexError`.
* `C95_external_violated` (`JackConnectionsProps.lean`): C95 is violated, if two ports of other clients are connected twice: activating the client raises a `JackError`.
* `C95_index_violated` (`JackConnectionsProps.lean`): C95 is violated by indices without a port: an `IndexError` is raised instead of the documented `ValueError`.
* `C96_integer_violated` (`BandsTextProps.lean`): C96 is violated, if the frequencies are integers: they are written as complex numbers and the file cannot be read.
* `C96_dot_violated` (`BandsTextProps.lean`): C96 is violated by files with integer frequencies, which are followed by a value with an exponent: both are found as one number, because a dot in the regular expression is not escaped.
* `C96_infinity_violated` (`BandsTextProps.lean`): C96 is violated by infinite values: they are skipped and the following values are assigned to the wrong channels.
* `C97_flac_violated` (`AudioRatesProps.lean`): C97 is violated by sampling rates between 65535.5Hz and 65537.5Hz: FLAC files get the sampling rate 65540Hz, although 65535Hz is nearer.
* `C98_uniform_violated` (`NoiseProps.lean`): C98 is violated by uniform noise with equal boundaries: the samples are not smaller than the upper boundary.
* `C99_correlation_violated` (`ConvolutionOtherProps.lean`): C99 is violated by correlating with a number: the signal is not reversed, although it is, if the number is given as an array of one sample.
* `C36_values_violated` (`FilterProps.lean`): C36 is violated by filters with bands, because C31 is: the values of the sum of two filters are not the sums of the values.
* `C72_constant_violated` (`LevelProps.lean`): C72 is violated by constant signals, that are as long as the window of `level_vs_time`: the sample in the middle depends on uninitialised memory.
* `C100_derived_violated` (`TermReprProps.lean`): C100 is violated: a filter of a derived class, e.g. `ButterworthFilter`, is saved with the name of its class, so that loading it raises a `NameError`.
* `C101_empty_violated` (`DataReprProps.lean`): C101 is violated by data without samples, e.g. `Signal()`: NumPy writes arrays without elements as `[]`, so the restored signal has a one-dimensional array and no channels; evaluating the text of a spectrogram raises an `IndexError`.
* `C101_derived_violated` (`DataReprProps.lean`): C101 is violated by derived classes, e.g. `HannWindow`: the text contains the name of the derived class, so evaluating it with the documented names raises a `NameError`.
* `C102_weighting_violated` (`StabilityProps.lean`): C102 is violated by the C-weighting filter: the terms are divided by their complex value at 1000 Hz rather than by its magnitude, so the phase is shifted by a constant at all positive frequencies; the impulse response of such a filter is not real (the A, B, D and U-weighting are normalised in the same way).
* **C103**: the correlation is documented as the convolution with the reversed signal, but `reversed(s).convolve(o)` begins `2 * (length - 1)` samples later than `s.correlate(o)`, because of the offset of the reversed signal (C09) (`C103_correlation_violated`); the channels are the same (`C103_correlation_partial`).  `a.convolve(b)` and `b.convolve(a)` have different labels, if `a` has one channel and `b` has two, because the labels are only created for the channels of the first operand (`C103_labels_violated`).
* **C104**: the spectrum of `reversed(signal)` is not the complex conjugate of the spectrum of the signal, because of the offset of the reversed signal (C09) (`C104_reversed_violated`); there is an additional delay of `2 * (length - 1)` samples (`C104_reversed_partial`).
* **C105**: `Concatenate([Concatenate([a, b]), c])` is different from `Concatenate([a, b, c])`, if `b` ends before the end of `a` because of a negative offset: the next signal is placed at the end of its predecessor, not at the end of the concatenation (`C105_concatenate_nested_first_violated`). Concatenating the last signals in advance is always possible (`C105_concatenate_nested_last`).
* `C106_mod_signals_violated` (`PowModProps.lean`): C106 is violated for the remainder of two signals: where only the divisor has a sample, the result is the divisor itself (`[5] % [3, 4]` is `[2, 4]`), although a remainder is smaller than its divisor.
* **C107** (`C107_cascade_violated`): at 0 Hz, the product of a filter with the transfer functions 0 and 1 and a filter with the transfer functions 1/s and 1 has the value 1 in the second channel, while applying the filters one after the other yields 0, because the invalid first channel of the second filter sets all of its following channels to 0 and the product drops that channel.
* C112: `AifcReader.extensions` is `(".wav",)`, so without the library `soundfile` no available reader is associated with the extensions of AIFF files, although they can be saved. They can be loaded nevertheless, because the other readers are tried (`C112_associated_violated`).
* C112: Without the library `soundfile`, the format `AUTO` stores WAV and AIFF files with 32 bit integers. A sample of 1.0 then raises a `struct.error` and no other format is tried (`C112_full_scale_violated`).
* C114: With the default value `beta=9.4248`, `SlepianWindow` raises a `ValueError` for windows with three to six samples, because `scipy.signal.windows.dpss` requires, that `beta / pi` is less than half of the length. Shorter and longer windows can be created (`C114_created_violated`).
* C116: the group delay of Bessel highpass filters is not constant in the pass band: at the cutoff frequency, it is more than twice as long as one octave higher (`C116_highpass_violated`). The documentation of the parameter `cutoff_frequency` as "-3dB threshold" is wrong for orders greater than one (`C116_cutoff_violated`).
* `C119_transition_violated` (`ChebyshevOptimalProps.lean`): The documentation of `ButterworthFilter` says, that Butterworth filters are optimized for a fast transition between the pass band and the stop band, while maintaining a monotonic magnitude response. Another monotonic filter of the order 3 has a greater attenuation at all frequencies of the stop band.
* `C120_shift_violated` (`StftLawsProps.lean`): If the offset of a signal is in the middle between two multiples of the step size, shifting the signal by one step shifts its spectrogram by zero or two samples (and changes the phases of the bins), because the offset is rounded to even integers.
* C122: merging does not commute with operations, that do not keep zeros (e.g. adding a number), if the time ranges of the signals are different (`C122_merge_offset_violated`).
* C124 (`C124_remove_violated`): `remove_input_port` after a recording: the recording of the removed port remains in the output signal and gets the label of the next port.
* C124 (`C124_names_violated`): a signal with a channel, that has the name of an input port: `input` raises a `JackError`, after it has removed the output ports.
* C126 (`C126_parenthesis_violated`): `str(spectrogram)` lacks the closing parenthesis.
* **C127** the weighting filters are divided by their complex value at 1000 Hz, not by its magnitude. This shifts the phase of all frequencies by the same angle, so the filters do not map real signals to real signals: the C-weighting at -1000 Hz is not the conjugate of that at 1000 Hz and the U-weighting has an imaginary part at 0 Hz, which the inverse transform discards (`C127_weighting_violated`).
* **C129** the operators of `Bands` compute with the values of the supporting points for every interpolation (`_primitive.py:559-609`), although only some operations can be exchanged with the interpolation: sums with logarithmic interpolations (`C129_logarithmic_sum_violated`), products with logarithmic interpolations, whose phases leave the range (`C129_phase_violated`), and magnitudes with linear interpolation (`C129_linear_magnitude_violated`) have other values between the supporting points. `__neg__` takes care of this.
* **C131** like C25: when a block contains the end of the signal and samples before it, `on_process` sets the index to the number of remaining samples (`_jack.py:453-461`), so that a loopback with the signal 1, 2, 3 and blocks of two samples is recorded as 0, 3, 0 instead of 0, 0, 1 (`C131_loopback_violated`).
* **C132** `Spectrum.inverse_fourier_transform` always creates an even number of samples, so that the quotient of the Fourier transforms of signals with an odd length is transformed back to an impulse response with one sample less and with another sampling rate (`C132_odd_violated`; see C52).
* `C141_time_violated`, `C141_frequency_violated` (`StepSliceProps.lean`): Slices with a step other than one move the selected samples to other times or frequencies: the sampling rate and the resolution are not adapted to the step, and with a negative step, the offset does not belong to the first selected sample (`signal[:, ::-1]` has another offset than `reversed(signal)`).
* `C141_float_step_violated` (`StepSliceProps.lean`): Negative float steps lose their sign, because `index` adds the length until the step is not negative: `signal[::-0.66]` does not reverse the order. The test in `test_signal.py:74` for this case compares two empty slices.
* `C141_tuple_violated` (`StepSliceProps.lean`): The documentation of the operator `[]` allows tuples of keys for all data sets. `signal[(0,)]` raises an `IndexError`, because the second element of the tuple is accessed without checking the length, and `filter[(0,)]` raises a `TypeError`.
* C145: `Signal.level_vs_time` computes the length of its window as the rounded product of the integration time and the sampling rate. If this is rounded up from a whole number, e.g. for an integration time of `7 / 48000` seconds at 48 kHz, `math.ceil` adds a sample at each end of the window, which gets nearly the full weight because of the wrong weights of the corners (see C54). The level of a constant signal is too high by 13% then (`C145_window_violated`, `C145_level_violated`).
* C145: The sampling rate, that is computed from the times in a table, differs from the saved one by rounding errors (47999.99999999999 instead of 48000 for eight samples, `C145_rate_violated`). For large offsets and few samples, this leads to a wrong offset (`C145_offset_violated`: two samples at the offset 52977616).
* C148: `start` does not wait for a recording, that is in progress. A callback, that has read the index before, stores the next index after `start` has reset it. The recording then misses its first samples, which keep the content of the uninitialised memory (`C148_restart_violated`).
* C148: With `auto_deactivate`, `input` returns as soon as the event is set, but the callback deactivates the client after setting the event. If `start` is called in between, the client is deactivated after being activated, and `output` waits forever (`C148_lost_start_violated`). `output` avoids this by sleeping for the duration of a block.
* C148: `on_shutdown` sets the event, while a callback might be running; `output` returns an array, that is still being written (`C148_shutdown_violated`).
* C149: `allocate_array` computes the number of doubles per element with an integer division, so that it raises a ValueError for elements of less than 8 bytes. `Concatenate` allocates its result with the data type of the data set, which starts first: signals with `float32` or `int16` samples cannot be concatenated, a first signal with integers causes the samples of the others to be truncated or a TypeError to be raised, and after a first spectrogram, that is real (`abs(spectrogram)`), the imaginary parts of the others are lost. The operators of signals compute in the data types of their operands: `100 + 100` is `-56` for `int8` samples and `-1` is `255` for `uint8` samples, although the results are arrays of doubles.
* C150: `Jack.output` is only declared as outdated by `start`, although its result also depends on the offset of the signal, the names of the input ports and the sampling rate. After a recording, setting another signal changes the offset of the recording, unless `output` has been called before (`C150_offset_violated`); likewise for the labels (`C150_labels_violated`) and the sampling rate (`C150_rate_violated`).
* C151: A signal of 64 bit integers above 2**53 can be equal to a signal of doubles, although their hashes are different, because numpy rounds the integers in comparisons (`C151_hash_violated`); for the same reason, the equality is not transitive (`C151_transitive_violated`). The hash of a signal with NaN is different each time it is computed (`C151_nan_hash_violated`).
* C152: the correlation in the mode `SPECTRUM` is cyclic with an even period, so the autocorrelation of one period of a maximum length sequence is not two-valued (`C152_spectrum_violated`).
* C153: the modes `FULL`, `SAME` and `VALID` of the convolution and of the correlation raise a `ValueError` for signals without samples (`C153_time_domain_violated`).
* C153: the correlation with a signal without samples raises a `ValueError` in the mode `SPECTRUM_PADDED` (`C153_correlation_violated`), and in the mode `SPECTRUM` only if the length of the other signal is even (`C153_parity_violated`).
* C153: transforming a signal without samples to a spectrum and back gives one sample (`C153_fourier_violated`); the inverse transform of the default spectrum has the sampling rate zero (`C153_rate_violated`).
* C153: adding the default signal pads a signal with an offset up to the time zero (`C153_sum_violated`).
* C161: The sum of two reversed signals with different lengths is not the reversed sum of the signals, because the offset of a reversed signal depends on its length (consequence of the violation of C09).

Observations outside of the model:

* Butterworth filters of order 0 raise a `ZeroDivisionError`, negative odd orders are accepted. The docstring of the Bessel
  filter claims a cutoff at -3 dB, although the documentation of the class says otherwise.
* Sums of an empty `Polynomial` and a `Constant` have the wrong sign; coefficients of the type `numpy.int64` raise a
  `TypeError`, when a filter is saved.
* `with numpy.load(npy)` raises a `TypeError` instead of an `AttributeError` on Python 3.11 and later, so NPY files cannot
  be loaded there. `AifcReader.extensions` is `(".wav",)`.
* The docstring of `TableReader` says, that real samples are levels in dB, but the code takes them linearly. Frequencies with
  an integer type are written as `20+0.0i` and cannot be loaded. Text writers use the `repr` of numpy scalars, which has
  changed in numpy 2.
* The instantaneous frequency of a sweep ignores the sweep's offset. A descending `LinearSweep` is labelled "Inverse sweep".
* In the block-wise transform, the resolution is computed with the window's sampling rate, but the compensation of the
  offset with the signal's.

## Appendix: axioms per theorem

Theorems of the manifest, grouped by the axioms they depend on.

### no axioms

`Signal.C161_functions`, `Signal.C99_array`, `Signal.C99_vector`, `Spectrogram.C74_other_frequencies`, `Spectrogram.C88_spectrogram_wrong_shape`

### propext

`Caching.C150_input_ports`, `Caching.C150_jack_partial`, `Caching.C150_kept`, `Caching.C150_new`, `Caching.C150_replies`, `Concatenate.C105_concatenate_nested_first_violated`, `Concatenate.C22_empty`, `Filter.C51_other_terms`, `Jack.C131_loopback_violated`, `Jack.C25_output`, `Jack.C25_replay_violated`, `Jack.C56_ambiguous_name_violated`, `Jack.C56_negative_index_violated`, `Jack.Session.C124_add`, `Jack.Session.C124_idle`, `Jack.Session.C124_names_violated`, `Jack.Session.C124_new`, `Jack.Session.C124_wait`, `Jack.Session.C124_xrun`, `Jack.Threads.C148_lost_start_violated`, `Jack.Threads.C148_restart_violated`, `Jack.Threads.C148_shutdown_violated`, `Jack.World.C95_channels_violated`, `Jack.World.C95_connect_inactive`, `Jack.World.C95_connect_partial`, `Jack.World.C95_deactivate`, `Jack.World.C95_external_violated`, `Jack.World.C95_index_violated`, `Merge.C122_merge_offset_violated`, `Merge.C23_empty_dataset_violated`, `Merge.C23_invalid_mode`, `Merge.C23_nothing`, `Mls.C53_length`, `MultiInput.C24_events`, `MultiInput.C24_init`, `Persistence.C47_content_violated`, `Persistence.C47_missing_library_violated`, `Persistence.C47_other_exceptions_violated`, `Signal.C06_offset_none`, `Signal.C07_negative_violated`, `Signal.C08_large_shift_violated`, `Signal.C10_zero_channels_violated`, `Signal.C11_mixed_channels_violated`, `Signal.C12_assoc_violated`, `Signal.C161_operators_violated`, `Spectrogram.C16_zero_channels_violated`, `Spectrogram.C73_zero_channels_violated`, `Spectrogram.C74_zero_channels_violated`, `Spectrogram.C84_large_shift_violated`, `Spectrogram.C84_negative_violated`, `Spectrogram.C84_offset_none`, `Spectrum.C15_one_bin_violated`, `TimeShift.C157_reversed`

### propext, Quot.sound

`C01_labels_content`, `C01_labels_length`, `Caching.C150_blocks`, `Caching.C150_concatenate`, `Caching.C150_merge`, `Caching.C150_once`, `Container.C66_defaults`, `Container.C66_no_channels_violated`, `Container.C66_npz_hash_violated`, `DataRepr.C101_one_line`, `DataTypes.C149_allocate_partial`, `Filter.C35_complex_violated`, `Filter.C35_saving`, `Filter.C36_neutral`, `Filter.C36_rejected`, `Filter.C51_csv_text`, `Filter.C51_labels`, `Jack.C25_constant_blocks`, `Jack.C56_dropped_partial`, `Jack.Session.C124_callbacks`, `Jack.Session.C124_shutdown`, `Jack.World.C95_unknown`, `Memory.C146_write_new`, `Memory.C156_write_new`, `Mls.C53_seed_violated`, `MultiInput.C24_concatenate`, `MultiInput.C24_failure`, `MultiInput.C24_history`, `MultiInput.C24_identifiers`, `Persistence.C46_history`, `Persistence.C46_order`, `Persistence.C46_remember_violated`, `Persistence.C46_stored_partial`, `Persistence.C46_success`, `Persistence.C47_auto_partial`, `Persistence.C47_created`, `Persistence.C47_first`, `Persistence.C47_format`, `Signal.C06_offset`, `Signal.C06_offset_compose`, `Signal.C09_negated_time_partial`, `Signal.C09_negated_time_violated`, `Signal.C09_reversed_involutive`, `Signal.C09_reversed_samples`, `Signal.C09_time_shifted`, `Spectrogram.C84_offset`, `Spectrogram.C85_pad`, `Spectrogram.C85_shift`, `Spectrogram.C88_spectrogram`, `Spectrum.C15_covered`, `Spectrum.C15_length_mismatch`, `TimeShift.C157_merge`, `Waves.C83_signal`, `Waves.C83_spectrogram`, `Waves.C83_spectrum`

### propext, Classical.choice, Quot.sound

`Audio.C49_error`, `Audio.C49_exact`, `Audio.C49_full_scale`, `Audio.C49_representable`, `Audio.C49_roundtrip`, `Audio.C49_success`, `AudioFile.C97_exact`, `AudioFile.C97_flac_partial`, `AudioFile.C97_flac_supported`, `AudioFile.C97_flac_violated`, `AudioFile.C97_idempotent`, `AudioFile.C97_monotone`, `AudioFile.C97_ogg`, `AudioFile.C97_wav`, `Axes.C89_duration`, `Axes.C89_increasing`, `Axes.C89_maximum`, `Axes.C89_same_time`, `Axes.C89_signal`, `Axes.C89_spectrogram_frequency`, `Axes.C89_spectrogram_time`, `Axes.C89_spectrum`, `Axes.C89_zero_rate`, `Blockwise.C30_covered`, `Blockwise.C30_distinct`, `Blockwise.C30_positions_cropped`, `Blockwise.C30_positions_padded`, `Blockwise.C30_positions_short`, `Blockwise.C30_short_violated`, `Blockwise.C30_transform`, `Blockwise.C67_constant`, `Blockwise.C67_hann`, `Blockwise.C67_rectangular_window`, `Blockwise.C67_weighted`, `C02_index_list`, `C02_index_partial`, `C02_termination_iff`, `C02_termination_violated`, `C03_empty_axis_violated`, `C03_float_key`, `C03_int_key_partial`, `C03_last_element_violated`, `C03_slice_key`, `C03_split`, `C141_channels`, `C141_filter`, `C141_filter_without_step`, `C141_float_step_violated`, `C141_frequency_violated`, `C141_signal`, `C141_signal_without_step`, `C141_spectrogram`, `C141_spectrogram_without_step`, `C141_spectrum`, `C141_spectrum_without_step`, `C141_surplus`, `C141_time_partial`, `C141_time_violated`, `C141_tuple_violated`, `C141_zero`, `Caching.C150_labels_violated`, `Caching.C150_offset_violated`, `Caching.C150_rate_violated`, `Concatenate.C105_concatenate_blocks`, `Concatenate.C105_concatenate_nested_first_partial`, `Concatenate.C105_concatenate_nested_last`, `Concatenate.C105_concatenate_shift`, `Concatenate.C122_concatenate`, `Concatenate.C122_concatenate_gain`, `Concatenate.C22_signals`, `Concatenate.C22_spectrograms`, `Container.C66_empty_spectrogram_violated`, `Container.C66_empty_spectrum_violated`, `Container.C66_npz_hash_spectrum_violated`, `Container.C66_signal_json`, `Container.C66_signal_npz`, `Container.C66_spectrogram_defaults`, `Container.C66_spectrogram_json`, `Container.C66_spectrogram_shape`, `Container.C66_spectrum_defaults`, `Container.C66_spectrum_json`, `Container.C66_spectrum_npz`, `Convolution.C142_centre`, `Convolution.C142_energy`, `Convolution.C142_moments`, `Convolution.C142_peak`, `Convolution.C142_peak_sharp`, `Convolution.C142_weighted`, `Correlation.C133_autocorrelation`, `Correlation.C133_bound`, `Correlation.C133_delay`, `Correlation.C133_power`, `Correlation.C133_shift`, `Correlation.C133_transform`, `DataRepr.C101_derived_violated`, `DataRepr.C101_empty_violated`, `DataRepr.C101_homogeneous`, `DataRepr.C101_signal_partial`, `DataRepr.C101_spectrogram_partial`, `DataRepr.C101_spectrum_partial`, `DataTypes.C149_abs`, `DataTypes.C149_allocate_violated`, `DataTypes.C149_boolean_violated`, `DataTypes.C149_doubles`, `DataTypes.C149_imaginary_violated`, `DataTypes.C149_negative_partial`, `DataTypes.C149_negative_violated`, `DataTypes.C149_operations`, `DataTypes.C149_operators_float`, `DataTypes.C149_operators_partial`, `DataTypes.C149_overflow_violated`, `DataTypes.C149_overlap_violated`, `DataTypes.C149_real_overlap_violated`, `DataTypes.C149_signals_partial`, `DataTypes.C149_small_violated`, `DataTypes.C149_spectrograms_partial`, `DataTypes.C149_truncated_violated`, `Deconvolution.C132_convolution_partial`, `Deconvolution.C132_measurement_partial`, `Deconvolution.C132_odd_violated`, `Deconvolution.C132_periodic_partial`, `Deconvolution.C132_transient_partial`, `Describe.C126_filter`, `Describe.C126_fixed`, `Describe.C126_parenthesis_violated`, `Describe.C126_signal`, `Describe.C126_spectrogram`, `Describe.C126_spectrum`, `Describe.C126_texts`, `Describe.C126_xrun`, `Double.C145_bin`, `Double.C145_index`, `Double.C145_key`, `Double.C145_level_violated`, `Double.C145_offset_violated`, `Double.C145_rate_violated`, `Double.C145_resolution`, `Double.C145_stft`, `Double.C145_table_partial`, `Double.C145_time`, `Double.C145_window_partial`, `Double.C145_window_violated`, `Double.C147_commutative`, `Double.C147_convolution`, `Double.C147_convolution_exact`, `Double.C147_difference`, `Double.C147_energy`, `Double.C147_energy_exact`, `Double.C147_frequencies`, `Double.C147_mean`, `Double.C147_times`, `Double.C147_variance`, `Empty.C153_convolution_partial`, `Empty.C153_correlation_violated`, `Empty.C153_fourier`, `Empty.C153_fourier_violated`, `Empty.C153_pad`, `Empty.C153_parity_violated`, `Empty.C153_rate_violated`, `Empty.C153_sum_partial`, `Empty.C153_sum_violated`, `Empty.C153_time_domain_violated`, `EnergyDecay.C108_decay_gain`, `EnergyDecay.C108_decay_model`, `EnergyDecay.C108_decay_tail`, `EnergyDecay.C108_regression`, `EnergyDecay.C108_reverberation_gain`, `EnergyDecay.C28_monotone`, `EnergyDecay.C28_samples`, `EnergyDecay.C28_total`, `EnergyDecay.C58_decay_model`, `EnergyDecay.C58_reverberation_time`, `Fade.C130_applied`, `Fade.C130_crossfade`, `Fade.C130_crossfade_bartlett`, `Fade.C130_product`, `Fade.C130_reversed`, `Fade.C130_sum`, `Fade.C130_window`, `Fade.C27_fade_in_monotone`, `Fade.C27_fade_out_antitone`, `Fade.C27_overlap_violated`, `Fade.C27_range_partial`, `Fade.C27_samples`, `Files.C112_associated`, `Files.C112_associated_spectrogram`, `Files.C112_associated_spectrum`, `Files.C112_associated_violated`, `Files.C112_audio`, `Files.C112_audio_auto_partial`, `Files.C112_full_scale_violated`, `Files.C112_missing_library`, `Files.C112_signal`, `Files.C112_signal_auto`, `Files.C112_signal_npy`, `Files.C112_soundfile`, `Files.C112_spectrogram`, `Files.C112_spectrogram_auto`, `Files.C112_spectrum`, `Files.C112_spectrum_auto`, `Filter.Arrays.C144_again`, `Filter.Arrays.C144_call`, `Filter.Arrays.C144_new`, `Filter.Arrays.C144_out`, `Filter.Arrays.C144_samples`, `Filter.Arrays.C144_spectrum`, `Filter.BandsText.C96_dot_violated`, `Filter.BandsText.C96_empty_line`, `Filter.BandsText.C96_file_partial`, `Filter.BandsText.C96_formats`, `Filter.BandsText.C96_header`, `Filter.BandsText.C96_infinity_violated`, `Filter.BandsText.C96_integer_violated`, `Filter.BandsText.C96_line`, `Filter.BandsText.C96_number`, `Filter.BandsText.C96_parentheses`, `Filter.BandsText.C96_tokens`, `Filter.C100_bands`, `Filter.C100_derived_violated`, `Filter.C100_primitive`, `Filter.C100_term`, `Filter.C100_type`, `Filter.C100_values_partial`, `Filter.C102_bessel`, `Filter.C102_butterworth`, `Filter.C102_chebyshev1`, `Filter.C102_chebyshev2`, `Filter.C102_weighting_partial`, `Filter.C102_weighting_violated`, `Filter.C116_constant`, `Filter.C116_cutoff_partial`, `Filter.C116_cutoff_violated`, `Filter.C116_highpass`, `Filter.C116_highpass_violated`, `Filter.C116_lowpass`, `Filter.C116_monotone`, `Filter.C119_butterworth`, `Filter.C119_complementary`, `Filter.C119_transition_violated`, `Filter.C119_type1`, `Filter.C119_type2`, `Filter.C123_bessel`, `Filter.C123_butterworth`, `Filter.C123_chebyshev1`, `Filter.C123_chebyshev2`, `Filter.C123_weighting`, `Filter.C127_filters`, `Filter.C127_hermitian`, `Filter.C127_operators`, `Filter.C127_weighting_partial`, `Filter.C127_weighting_violated`, `Filter.C127_zero_hertz`, `Filter.C128_bessel`, `Filter.C128_bessel_magnitude`, `Filter.C128_butterworth`, `Filter.C128_chebyshev1`, `Filter.C128_chebyshev2`, `Filter.C128_cutoff`, `Filter.C128_jump`, `Filter.C128_ripple`, `Filter.C129_inverse`, `Filter.C129_linear_magnitude_violated`, `Filter.C129_logarithmic_sum_violated`, `Filter.C129_magnitude`, `Filter.C129_negate`, `Filter.C129_phase_violated`, `Filter.C129_points`, `Filter.C129_product`, `Filter.C129_quotient`, `Filter.C129_single`, `Filter.C129_sum`, `Filter.C134_band`, `Filter.C134_concave`, `Filter.C134_order`, `Filter.C134_symmetric`, `Filter.C134_unimodal`, `Filter.C137_between`, `Filter.C137_level`, `Filter.C137_maximum`, `Filter.C137_table`, `Filter.C139_bessel`, `Filter.C139_butterworth`, `Filter.C139_chebyshev1`, `Filter.C139_chebyshev2`, `Filter.C139_unique`, `Filter.C140_even`, `Filter.C140_first_order`, `Filter.C140_linkwitz_riley`, `Filter.C140_odd`, `Filter.C140_power`, `Filter.C158_bessel`, `Filter.C158_butterworth`, `Filter.C158_chebyshev1`, `Filter.C158_chebyshev2`, `Filter.C158_delay`, `Filter.C158_derivative`, `Filter.C31_arithmetic_partial`, `Filter.C31_bands_violated`, `Filter.C31_linear_bands_violated`, `Filter.C31_operators_partial`, `Filter.C31_zero_bands_violated`, `Filter.C32_constructors_partial`, `Filter.C32_difference_add`, `Filter.C32_difference_negate`, `Filter.C32_difference_partial`, `Filter.C32_difference_sub`, `Filter.C32_difference_violated`, `Filter.C32_invert_transform_partial`, `Filter.C32_invert_transform_violated`, `Filter.C32_transformed_evaluation`, `Filter.C33_positive_frequencies`, `Filter.C33_spectrum_partial`, `Filter.C33_untransformed_partial`, `Filter.C33_zero_hertz_partial`, `Filter.C33_zero_hertz_violated`, `Filter.C34_empty_bands_violated`, `Filter.C34_exception_violated`, `Filter.C34_filter_values_partial`, `Filter.C34_filters`, `Filter.C34_is_zero_partial`, `Filter.C34_symmetry_partial`, `Filter.C34_symmetry_violated`, `Filter.C34_values_partial`, `Filter.C34_values_violated`, `Filter.C35_bands`, `Filter.C35_values_partial`, `Filter.C36_accepted`, `Filter.C36_channels`, `Filter.C36_numbers`, `Filter.C36_values_partial`, `Filter.C36_values_violated`, `Filter.C37_cutoff`, `Filter.C37_magnitude`, `Filter.C37_monotonic`, `Filter.C37_order_zero`, `Filter.C38_exact`, `Filter.C38_gain`, `Filter.C38_value`, `Filter.C39_delays_add`, `Filter.C39_derivative`, `Filter.C39_magnitude`, `Filter.C39_value`, `Filter.C40_c_limits`, `Filter.C40_labels`, `Filter.C40_weighting`, `Filter.C41_from_to_real`, `Filter.C41_to_from_complex`, `Filter.C41_to_from_real`, `Filter.C41_values`, `Filter.C51_csv`, `Filter.C51_csv_no_labels`, `Filter.C51_negative_frequency_violated`, `Filter.C51_no_channels_violated`, `Filter.C51_npy_partial`, `Filter.C51_npz_partial`, `Filter.C51_short_line_violated`, `Filter.C51_table`, `Filter.C51_text`, `Filter.C60_sum_violated`, `Filter.C60_transformed_primitives`, `Filter.C60_zero_hertz_partial`, `Filter.C61_slicing`, `Filter.C61_values`, `Filter.C62_even_order`, `Filter.C62_highpass`, `Filter.C62_magnitude`, `Filter.C62_mirrored`, `Filter.C62_no_ripple`, `Filter.C62_odd_order`, `Filter.C63_magnitude_partial`, `Filter.C63_stop_band`, `Filter.C63_zero_hertz_violated`, `Filter.C64_channels`, `Filter.C64_labels`, `Filter.C64_sorted`, `Filter.C64_success`, `FilterApply.C107_cascade_partial`, `FilterApply.C107_cascade_violated`, `FilterApply.C107_commute`, `FilterApply.C107_impulse_response`, `FilterApply.C107_inverse_partial`, `FilterApply.C107_linear`, `FilterApply.C107_superposition`, `FilterApply.C107_time_invariant`, `FilterApply.C136_bessel`, `FilterApply.C136_bound`, `FilterApply.C136_butterworth`, `FilterApply.C136_chebyshev1`, `FilterApply.C136_chebyshev2`, `FilterApply.C136_imaginary`, `FilterApply.C136_lower`, `FilterApply.C138_delay`, `FilterApply.C138_derivative`, `FilterApply.C138_unique`, `FilterApply.C93_delay`, `FilterApply.C93_gain`, `FilterApply.C93_not_finite`, `FilterApply.C93_odd_violated`, `FilterApply.C93_sinusoid_partial`, `FilterApply.C93_spectrogram`, `FilterApply.C93_spectrum`, `FilterApply.C93_spectrum_other_channels`, `Fourier.C104_convolution`, `Fourier.C104_reversed_partial`, `Fourier.C104_reversed_violated`, `Fourier.C104_shift`, `Fourier.C104_sum`, `Fourier.C109_constant`, `Fourier.C109_padding`, `Fourier.C109_padding_multiple`, `Fourier.C109_repeated`, `Fourier.C109_sine`, `Fourier.C135_conjugate`, `Fourier.C135_product`, `Fourier.C135_resampling`, `Fourier.C135_sum`, `Fourier.C135_upsampling`, `Fourier.C135_values`, `Fourier.C52_odd`, `Fourier.C52_one`, `Fourier.C52_signal`, `Fourier.C52_signal_exact`, `Fourier.C52_spectrum`, `Fourier.C52_spectrum_exact`, `Fourier.C52_transform`, `Harmonic.C125_channels`, `Harmonic.C125_linear`, `Harmonic.C45_harmonic`, `Harmonic.C45_length_partial`, `Harmonic.C45_length_violated`, `Harmonic.C45_linear`, `Harmonic.C45_unmodified_partial`, `Harmonic.C45_unmodified_violated`, `Harmonic.C71_delay_partial`, `Harmonic.C71_delay_violated`, `Interpolation.C121_bands`, `Interpolation.C121_between`, `Interpolation.C121_inverse`, `Interpolation.C121_linear`, `Interpolation.C121_log_between`, `Interpolation.C121_log_monotone`, `Interpolation.C121_monotone`, `Interpolation.C121_product`, `Interpolation.C121_slope`, `Interpolation.C29_array`, `Interpolation.C29_linear`, `Interpolation.C29_linear_reproduces`, `Interpolation.C29_log_x_reproduces`, `Interpolation.C29_log_y_reproduces`, `Interpolation.C29_logarithmic_reproduces`, `Interpolation.C29_single`, `Interpolation.C29_stairs_lin`, `Interpolation.C29_stairs_log`, `Interpolation.C29_supporting_points`, `Interpolation.C29_zero_one`, `Inverse.C92_convolve_partial`, `Inverse.C92_cyclic`, `Inverse.C92_default_mode_violated`, `Inverse.C92_empty`, `Inverse.C92_involution`, `Inverse.C92_odd_violated`, `Inverse.C92_padding_violated`, `Inverse.C92_singular`, `Jack.C131_convolution_partial`, `Jack.C131_loopback_partial`, `Jack.C131_realizable`, `Jack.C131_response_partial`, `Jack.C25_continues_violated`, `Jack.C25_playback_partial`, `Jack.C55_port_names`, `Jack.C55_port_names_short`, `Jack.C56_kept_partial`, `Jack.C57_delay_violated`, `Jack.C57_xrun_partial`, `Jack.Session.C124_input_partial`, `Jack.Session.C124_recording_partial`, `Jack.Session.C124_remove`, `Jack.Session.C124_remove_violated`, `Jack.Threads.C148_active_partial`, `Jack.Threads.C148_bounded_partial`, `Jack.Threads.C148_finished`, `Jack.Threads.C148_no_deadlock_partial`, `Jack.Threads.C148_no_exception`, `Jack.Threads.C148_results_partial`, `Jack.Threads.C148_samples_partial`, `Jack.Threads.C148_unchanged_partial`, `Jack.World.C95_activate`, `Jack.World.C95_connect_activate`, `Jack.World.C95_deactivate_inactive`, `Jack.World.C95_outputs_partial`, `Jack.World.C95_reactivate`, `Level.C108_channel_levels`, `Level.C108_level_gain`, `Level.C108_level_monotone`, `Level.C108_level_triangle`, `Level.C161_level`, `Level.C54_abs`, `Level.C54_constant_violated`, `Level.C54_corner_violated`, `Level.C54_integer_partial`, `Level.C54_level_partial`, `Level.C54_memory_violated`, `Level.C72_bound`, `Level.C72_constant_partial`, `Level.C72_constant_violated`, `Level.C72_mean`, `Level.C72_single`, `Level.C91_complex_violated`, `Level.C91_empty`, `Level.C91_odd_violated`, `Level.C91_one_bin_violated`, `Level.C91_signal`, `Level.C91_spectrum_partial`, `Locality.C155_causal`, `Locality.C155_convolution`, `Locality.C155_correlation`, `Locality.C155_energy`, `Locality.C155_istft`, `Locality.C155_level`, `Locality.C155_stft`, `Memory.C146_new`, `Memory.C146_program`, `Memory.C146_views`, `Memory.C146_write_view`, `Memory.C156_new`, `Memory.C156_program`, `Memory.C156_views`, `Memory.C156_write_view`, `Merge.C105_cut_channel`, `Merge.C105_cut_merged`, `Merge.C105_merge_groups`, `Merge.C122_merge_fourier`, `Merge.C122_merge_gain`, `Merge.C122_merge_signals`, `Merge.C122_merge_spectrograms`, `Merge.C122_merge_spectrums`, `Merge.C23_filters_partial`, `Merge.C23_signals_partial`, `Merge.C23_spectrograms_partial`, `Merge.C23_spectrums_partial`, `Mls.C110_autocorrelation`, `Mls.C110_balance`, `Mls.C110_maximal`, `Mls.C110_patterns`, `Mls.C110_period`, `Mls.C110_periods`, `Mls.C110_seeds`, `Mls.C110_spectrum`, `Mls.C152_measurement_partial`, `Mls.C152_spectrum_violated`, `Mls.C53_bits`, `Mls.C53_one_bit_violated`, `Mls.C53_samples_partial`, `Mls.C53_seed`, `MultiInput.C24_merge`, `Noise.C98_labels`, `Noise.C98_mean`, `Noise.C98_metadata`, `Noise.C98_prefix`, `Noise.C98_range_partial`, `Noise.C98_seed`, `Noise.C98_triangular_default`, `Noise.C98_triangular_distribution`, `Noise.C98_uniform_distribution`, `Noise.C98_uniform_violated`, `Numbers.C151_equivalence_partial`, `Numbers.C151_exact`, `Numbers.C151_hash_partial`, `Numbers.C151_hash_violated`, `Numbers.C151_nan_hash_violated`, `Numbers.C151_symmetric`, `Numbers.C151_transitive_violated`, `Numbers.C151_values_partial`, `Pieces.C159_exponential`, `Pieces.C159_exponential_length`, `Pieces.C159_linear`, `Pieces.C159_linear_length`, `Pieces.C159_sine`, `Pieces.C159_square`, `RudinShapiro.C111_crest_factor`, `RudinShapiro.C111_peak`, `RudinShapiro.C26_negative_stop_violated`, `RudinShapiro.C26_samples_partial`, `Signal.C04_channels_time`, `Signal.C04_labels`, `Signal.C04_slice_time_partial`, `Signal.C04_violated`, `Signal.C05_pad`, `Signal.C05_pad_crop`, `Signal.C06_crop`, `Signal.C07_negative_not_moved`, `Signal.C07_pad_partial`, `Signal.C08_cycle_inverse`, `Signal.C08_cycle_partial`, `Signal.C08_large_shift_identity`, `Signal.C103_associative`, `Signal.C103_correlation_exchanged`, `Signal.C103_correlation_partial`, `Signal.C103_correlation_violated`, `Signal.C103_distributive`, `Signal.C103_gain`, `Signal.C103_impulse`, `Signal.C103_labels_violated`, `Signal.C103_shift`, `Signal.C105_pad_slice`, `Signal.C105_slice_slice`, `Signal.C106_exponential`, `Signal.C106_mod_mod`, `Signal.C106_mod_negative`, `Signal.C106_mod_positive`, `Signal.C106_mod_shift`, `Signal.C106_mod_signals_partial`, `Signal.C106_mod_signals_violated`, `Signal.C106_mod_zero`, `Signal.C106_power_add`, `Signal.C106_power_add_natural`, `Signal.C106_power_natural`, `Signal.C106_power_one`, `Signal.C106_power_power`, `Signal.C106_power_signals`, `Signal.C106_power_square`, `Signal.C106_right_commutative`, `Signal.C106_right_div`, `Signal.C106_right_sub`, `Signal.C106_rmod`, `Signal.C106_root_of_square`, `Signal.C106_undo`, `Signal.C10_pointwise_partial`, `Signal.C11_add_assoc`, `Signal.C11_add_comm`, `Signal.C11_add_value`, `Signal.C11_sub_eq_add_neg`, `Signal.C12_mul_assoc_partial`, `Signal.C12_mul_comm`, `Signal.C13_eq_iff`, `Signal.C13_hash`, `Signal.C13_nan_violated`, `Signal.C13_refl_partial`, `Signal.C13_symm`, `Signal.C13_trans`, `Signal.C14_array`, `Signal.C14_array_right`, `Signal.C14_wrong_shape`, `Signal.C161_convolution`, `Signal.C161_correlation`, `Signal.C161_operators_partial`, `Signal.C161_rotation`, `Signal.C161_slice`, `Signal.C17_commutative`, `Signal.C17_full`, `Signal.C18_same`, `Signal.C18_valid`, `Signal.C19_padded`, `Signal.C19_spectrum`, `Signal.C20_full`, `Signal.C20_same`, `Signal.C20_valid`, `Signal.C21_padded`, `Signal.C21_spectrum`, `Signal.C99_correlation_partial`, `Signal.C99_correlation_violated`, `Signal.C99_number`, `Signal.C99_number_spectrum`, `Signal.C99_scalar`, `Spectrogram.C05_spectrogram_pad`, `Spectrogram.C16_pointwise_partial`, `Spectrogram.C73_signal_partial`, `Spectrogram.C73_signal_right_partial`, `Spectrogram.C74_spectrum_partial`, `Spectrogram.C74_spectrum_right_partial`, `Spectrogram.C84_crop`, `Spectrogram.C84_cycle_partial`, `Spectrogram.C84_pad`, `Spectrogram.C84_shift_pad_partial`, `Spectrogram.C86_bins`, `Spectrogram.C86_channels`, `Spectrogram.C86_labels`, `Spectrogram.C86_slice_partial`, `Spectrogram.C86_violated`, `Spectrogram.C87_spectrogram_equivalence`, `Spectrogram.C87_spectrogram_hash`, `Spectrogram.C87_spectrogram_iff`, `Spectrogram.C90_spectrogram_involution`, `Spectrogram.C90_spectrogram_operators`, `Spectrogram.C90_spectrogram_parts`, `Spectrum.C05_spectrum_pad`, `Spectrum.C106_spectrum_power_inverse`, `Spectrum.C106_spectrum_power_natural`, `Spectrum.C106_spectrum_power_square`, `Spectrum.C15_binwise_partial`, `Spectrum.C162_abs`, `Spectrum.C162_conjugate`, `Spectrum.C162_operators`, `Spectrum.C162_triangle`, `Spectrum.C86_spectrum`, `Spectrum.C86_spectrum_channels`, `Spectrum.C86_spectrum_labels`, `Spectrum.C87_spectrum_equivalence`, `Spectrum.C87_spectrum_hash`, `Spectrum.C87_spectrum_iff`, `Spectrum.C88_invert`, `Spectrum.C88_spectrum`, `Spectrum.C90_spectrum_involution`, `Spectrum.C90_spectrum_operators`, `Spectrum.C90_spectrum_parts`, `Spectrum.C90_spectrum_polar_unique`, `Spectrum.C90_spectrum_products`, `Statistics.C143_constant`, `Statistics.C143_mls`, `Statistics.C143_sine`, `Statistics.C143_square`, `Statistics.C160_level`, `Statistics.C160_parts`, `Statistics.C94_affine`, `Statistics.C94_channels`, `Statistics.C94_empty`, `Statistics.C94_level`, `Statistics.C94_pearson`, `Statistics.C94_range`, `Statistics.C94_reversed`, `Statistics.C94_rotated`, `Statistics.C94_single_value`, `Statistics.C94_total`, `Statistics.C94_total_level`, `StepSlice.C141_indices`, `Stft.C120_bounded`, `Stft.C120_energy`, `Stft.C120_gain`, `Stft.C120_shift_partial`, `Stft.C120_shift_violated`, `Stft.C120_sum`, `Stft.C120_tone`, `Stft.C120_tone_default`, `Stft.C154_default`, `Stft.C154_least_squares`, `Stft.C154_linear`, `Stft.C154_projection`, `Stft.C154_pythagoras`, `Stft.C154_threshold`, `Stft.C30_stft`, `Stft.C30_stft_covered`, `Stft.C30_stft_cropped`, `Stft.C68_offset`, `Stft.C68_phase_partial`, `Stft.C68_phase_violated`, `Stft.C69_hann`, `Stft.C69_inverse`, `Sweep.C117_cut`, `Sweep.C117_delay`, `Sweep.C117_nonlinear`, `Sweep.C117_synchronized`, `Sweep.C44_exponential`, `Sweep.C44_inverse_exponential`, `Sweep.C44_inverse_linear`, `Sweep.C44_linear`, `Sweep.C70_attained_exponential`, `Sweep.C70_attained_linear`, `Sweep.C70_exponential`, `Sweep.C70_linear`, `Table.C50_empty_violated`, `Table.C50_one_bin_violated`, `Table.C50_one_sample_partial`, `Table.C50_one_sample_violated`, `Table.C50_signal_csv`, `Table.C50_signal_npy`, `Table.C50_spectrum_csv`, `Table.C50_spectrum_npy`, `Table.C65_empty_row`, `Table.C65_invalid_axis`, `Table.C65_invalid_number`, `Table.C65_negative_error_violated`, `Table.C65_negative_violated`, `Table.C65_ragged_rows`, `Table.C65_signal`, `Table.C65_signal_unlabeled`, `Table.C65_spectrum_partial`, `Table.C65_spectrum_unlabeled`, `Text.C48_digits_injective`, `Text.C48_ordinal`, `TimeShift.C157_algebra`, `TimeShift.C157_concatenate`, `TimeShift.C157_convolve`, `TimeShift.C157_convolve_spectrum`, `TimeShift.C157_level`, `TimeShift.C157_program`, `TimeShift.C157_single`, `Units.C158_exponential`, `Units.C158_fourier`, `Units.C158_inverse_exponential`, `Units.C158_inverse_fourier`, `Units.C158_inverse_linear`, `Units.C158_inverse_stft`, `Units.C158_level`, `Units.C158_linear`, `Units.C158_reverberation`, `Units.C158_sine`, `Units.C158_square`, `Units.C158_stft`, `Waves.C82_cosine`, `Waves.C82_half_period`, `Waves.C82_sine`, `Waves.C82_square`, `Waves.C82_whole_periods`, `Waves.C82_zero_rate`, `Windows.C113_equiripple`, `Windows.C113_optimal`, `Windows.C113_palindrome`, `Windows.C113_samples`, `Windows.C113_side_lobes`, `Windows.C114_created_violated`, `Windows.C114_normalized_partial`, `Windows.C114_refused`, `Windows.C114_samples_partial`, `Windows.C114_short`, `Windows.C114_unique`, `Windows.C115_concentration`, `Windows.C115_main_lobe`, `Windows.C115_side_lobes`, `Windows.C115_unique`, `Windows.C118_fade`, `Windows.C118_functions`, `Windows.C118_window`, `Windows.C42_functions_middle`, `Windows.C42_functions_range`, `Windows.C42_functions_symmetric`, `Windows.C42_odd_rest_violated`, `Windows.C42_palindrome`, `Windows.C42_periodic`, `Windows.C42_plateau_partial`, `Windows.C42_samples`, `Windows.C43_constant`, `Windows.C43_full_overlap`, `Windows.C43_hann_multiple`, `Windows.C43_hann_overlap`, `Windows.C43_hann_scaling`, `Windows.C43_scaling_factor`, `Windows.C59_amplitude_flatness`, `Windows.C59_complete_overlap`, `Windows.C59_correlation_range`, `Windows.C59_correlation_zero`, `Windows.C59_flat`, `Windows.C59_flatness_range`, `Windows.C59_overlap_correlation`, `Windows.C59_power_flatness`, `Windows.C75_exponential`, `Windows.C75_exponential_corners`, `Windows.C75_gaussian`, `Windows.C75_gaussian_range`, `Windows.C75_parzen_ends_partial`, `Windows.C75_parzen_ends_violated`, `Windows.C76_flat_top`, `Windows.C76_flat_top_peak`, `Windows.C76_nuttall`, `Windows.C76_nuttall_peak`, `Windows.C76_palindrome`, `Windows.C76_single_sample_violated`, `Windows.C76_terms`, `Windows.C76_unknown`, `Windows.C77_blackman_harris`, `Windows.C77_fast_and_suppressed`, `Windows.C77_flat_top_partial`, `Windows.C77_hann_hamming_blackman`, `Windows.C77_hft169d_violated`, `Windows.C77_nuttall`, `Windows.C78_functions_partial`, `Windows.C78_parzen_violated`, `Windows.C78_plateau`, `Windows.C78_windows`, `Windows.C79_bartlett_hann`, `Windows.C79_bartlett_hann_range`, `Windows.C79_bohman`, `Windows.C79_palindrome`, `Windows.C79_symmetric`, `Windows.C80_bandwidth_partial`, `Windows.C80_bandwidth_violated`, `Windows.C80_scalloping_loss`, `Windows.C80_scalloping_loss_range`, `Windows.C80_scalloping_loss_rectangular`, `Windows.C81_empty`, `Windows.C81_recommended_overlap`, `Windows.C81_rectangular`

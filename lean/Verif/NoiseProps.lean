import Verif.Noise
import Verif.NumpyLemmas
import Mathlib.Analysis.SpecialFunctions.Trigonometric.Basic
import Mathlib.Tactic.Linarith
import Mathlib.Tactic.Positivity
import Mathlib.Tactic.Ring
import Mathlib.Tactic.FieldSimp

/-
C98: Noise signals
-/

namespace Verif
namespace Noise

variable {S σ : Type}

/-! ### the generator -/

/-- the number, that numpy computes from a number `0 ≤ u < 1` for a triangular distribution (`random_triangular` in
`numpy/random/src/distributions/distributions.c`) -/
noncomputable def triangularSample (left mode right u : ℝ) : ℝ :=
  if u ≤ (mode - left) / (right - left) then left + Real.sqrt (u * ((mode - left) * (right - left)))
  else right - Real.sqrt ((1 - u) * ((right - mode) * (right - left)))

/-- the documented behaviour of numpy's generator: the accepted parameters and the range of the numbers. The state determines
numbers `0 ≤ u < 1`, from which the numbers of the uniform and the triangular distribution are computed. -/
structure Rng.Ok (g : Rng S σ) (u : σ → ℝ) : Prop where
  unit : ∀ s, 0 ≤ u s ∧ u s < 1
  uniform_valid : ∀ l h, g.valid (.uniform l h) = true ↔ l ≤ h
  uniform : ∀ l h s, (g.next (.uniform l h) s).1 = l + (h - l) * u s
  triangular_valid : ∀ l m r, g.valid (.triangular l m r) = true ↔ l ≤ m ∧ m ≤ r ∧ l ≠ r
  triangular : ∀ l m r s, (g.next (.triangular l m r) s).1 = triangularSample l m r (u s)
  poisson : ∀ l s, ∃ k : ℕ, (g.next (.poisson l) s).1 = k
  vonmises : ∀ m k s, -Real.pi ≤ (g.next (.vonmises m k) s).1 ∧ (g.next (.vonmises m k) s).1 ≤ Real.pi
  geometric : ∀ p s, ∃ k : ℕ, 1 ≤ k ∧ (g.next (.geometric p) s).1 = k
  hypergeometric_valid : ∀ a b n, g.valid (.hypergeometric a b n) = true ↔ n ≤ a + b
  hypergeometric : ∀ a b n s, n ≤ a + b → ∃ k : ℕ, k ≤ a ∧ k ≤ n ∧ n - b ≤ k ∧ (g.next (.hypergeometric a b n) s).1 = k
  binomial : ∀ n p s, ∃ k : ℕ, k ≤ n ∧ (g.next (.binomial n p) s).1 = k
  beta : ∀ a b s, 0 ≤ (g.next (.beta a b) s).1 ∧ (g.next (.beta a b) s).1 ≤ 1
  gamma : ∀ a b s, 0 ≤ (g.next (.gamma a b) s).1
  logseries : ∀ p s, ∃ k : ℕ, 1 ≤ k ∧ (g.next (.logseries p) s).1 = k
  pareto : ∀ a s, 0 ≤ (g.next (.pareto a) s).1
  wald : ∀ a b s, 0 ≤ (g.next (.wald a b) s).1
  chisquare : ∀ a s, 0 ≤ (g.next (.chisquare a) s).1

/-! ### the samples -/

theorem samples_length (g : Rng S σ) (d : Dist) (n : Nat) (s : σ) : (g.samples d n s).length = n := by
  induction n generalizing s with
  | zero => rfl
  | succ n ih => rw [Rng.samples, List.length_cons, ih]

theorem samples_add (g : Rng S σ) (d : Dist) (m n : Nat) (s : σ) :
    ∃ s', g.samples d (m + n) s = g.samples d m s ++ g.samples d n s' := by
  induction m generalizing s with
  | zero => exact ⟨s, by rw [Nat.zero_add]; rfl⟩
  | succ m ih =>
    obtain ⟨s', h⟩ := ih (g.next d s).2
    refine ⟨s', ?_⟩
    rw [Nat.add_right_comm, Rng.samples, h]
    rfl

theorem samples_mem (g : Rng S σ) (d : Dist) (n : Nat) (s : σ) (x : ℝ) (h : x ∈ g.samples d n s) :
    ∃ s', x = (g.next d s').1 := by
  induction n generalizing s with
  | zero => cases h
  | succ n ih =>
    rcases List.mem_cons.mp h with h | h
    · exact ⟨s, h⟩
    · exact ih _ h

/-- the signal, that is created -/
theorem new_ok (mem : Nat → Nat → ℝ) (g : Rng S σ) (k : Kind) (seed : Option S) (rate : ℝ) (length : Nat)
    (hv : g.valid k.dist = true) :
    ∃ N, Noise.new mem g k seed rate length = .ok N ∧ N.seed = seed ∧ N.signal.channels.rows = 1 ∧
      N.signal.channels.cols = length ∧ N.signal.rate = rate ∧ N.signal.offset = 0 ∧ N.signal.labels = [k.label] ∧
      ∀ i, i < length → (g.samples k.dist length (g.default seed))[i]? = some (N.signal.channels.get 0 i) := by
  obtain ⟨C, c1, c2, c3, c4, _⟩ := Mat.assign_ok (A := alloc mem 1 length)
    (S := ⟨1, length, fun _ i => (g.samples k.dist length (g.default seed)).getD i 0⟩) (r := .all) (c := .all)
    0 1 0 length rfl rfl rfl rfl rfl rfl
  refine ⟨⟨Signal.new C rate 0 (some [k.label]), seed⟩, ?_, rfl, c2, c3, rfl, rfl, ?_, ?_⟩
  · unfold Noise.new Rng.draw
    dsimp only
    rw [if_pos hv]
    show ((alloc mem 1 length).assign .all .all _ >>= _) = _
    rw [c1]
    rfl
  · show sanitizeLabels (some [k.label]) C.rows = _
    rw [c2]
    rfl
  · intro i hi
    show _ = some (C.get 0 i)
    rw [c4 0 i (by omega) (by omega) (by omega) hi]
    show _ = some ((g.samples k.dist length (g.default seed)).getD i 0)
    rw [List.getD_eq_getElem?_getD, List.getElem?_eq_getElem (by rw [samples_length]; exact hi)]
    rfl

/-- C98: Noise signals have one channel with the given number of samples, the given sampling rate, no offset and the name of
the distribution as label; the seed can be retrieved. -/
theorem C98_metadata (mem : Nat → Nat → ℝ) (g : Rng S σ) (k : Kind) (seed : Option S) (rate : ℝ) (length : Nat)
    (hv : g.valid k.dist = true) :
    ∃ N, Noise.new mem g k seed rate length = .ok N ∧ N.seed = seed ∧ N.signal.channels.rows = 1 ∧
      N.signal.channels.cols = length ∧ N.signal.rate = rate ∧ N.signal.offset = 0 ∧ N.signal.labels = [k.label] := by
  obtain ⟨N, h1, h2, h3, h4, h5, h6, h7, -⟩ := new_ok mem g k seed rate length hv
  exact ⟨N, h1, h2, h3, h4, h5, h6, h7⟩

/-- The name of the class, with which each kind of noise is created. -/
def className : Kind → String
  | .uniform .. => "UniformNoise"
  | .gaussian .. => "GaussianNoise"
  | .poisson .. => "PoissonNoise"
  | .laplace .. => "LaplaceNoise"
  | .vonMises .. => "VonMisesNoise"
  | .triangular .. => "TriangularNoise"
  | .geometric .. => "GeometricNoise"
  | .hypergeometric .. => "HypergeometricNoise"
  | .binomial .. => "BinomialNoise"
  | .beta .. => "BetaNoise"
  | .gamma .. => "GammaNoise"
  | .logarithmic .. => "LogarithmicNoise"
  | .logistic .. => "LogisticNoise"
  | .lomax .. => "LomaxNoise"
  | .wald .. => "WaldNoise"
  | .chiSquare .. => "ChiSquareNoise"

/-- The letters of a text, without their case. -/
def letters (s : String) : List Char := (s.toList.filter Char.isAlpha).map Char.toLower

/-- C98: The labels of the noise signals tell the name of the class, with which they have been created. -/
theorem C98_labels (k : Kind) : letters k.label = letters (className k) := by
  cases k <;> (dsimp only [Kind.label, className]; decide +kernel)

example : letters (Kind.label (.chiSquare 2)) = "chisquarenoise".toList := by decide +kernel

/-- C98: Noise signals with the same seed and the same parameters are equal, whatever the operating system provides as seed for
other signals and whatever the memory contained before. -/
theorem C98_seed (mem mem' : Nat → Nat → ℝ) (g : Rng S σ) (e : σ) (k : Kind) (seed : S) (rate : ℝ) (length : Nat)
    (hv : g.valid k.dist = true) :
    ∃ N N', Noise.new mem g k (some seed) rate length = .ok N ∧
      Noise.new mem' { g with entropy := e } k (some seed) rate length = .ok N' ∧
      N.signal.labels = N'.signal.labels ∧ N.signal.rate = N'.signal.rate ∧ N.signal.offset = N'.signal.offset ∧
      N.signal.channels.rows = N'.signal.channels.rows ∧ N.signal.channels.cols = N'.signal.channels.cols ∧
      ∀ i, i < length → N.signal.channels.get 0 i = N'.signal.channels.get 0 i := by
  obtain ⟨N, h1, h2, h3, h4, h5, h6, h7, h8⟩ := new_ok mem g k (some seed) rate length hv
  obtain ⟨N', k1, k2, k3, k4, k5, k6, k7, k8⟩ := new_ok mem' { g with entropy := e } k (some seed) rate length hv
  refine ⟨N, N', h1, k1, by rw [h7, k7], by rw [h5, k5], by rw [h6, k6], by rw [h3, k3], by rw [h4, k4], ?_⟩
  intro i hi
  have hs : ∀ (n : Nat) (s : σ), ({ g with entropy := e } : Rng S σ).samples k.dist n s = g.samples k.dist n s := by
    intro n
    induction n with
    | zero => intro s; rfl
    | succ n ih =>
      intro s
      rw [Rng.samples, Rng.samples, ih]
  have := k8 i hi
  rw [hs] at this
  have h := h8 i hi
  rw [show g.default (some seed) = ({ g with entropy := e } : Rng S σ).default (some seed) from rfl, this] at h
  exact (Option.some.inj h).symm

/-- C98: A shorter noise signal with the same seed is the begin of a longer one. -/
theorem C98_prefix (mem mem' : Nat → Nat → ℝ) (g : Rng S σ) (k : Kind) (seed : S) (rate : ℝ) (m n : Nat)
    (hv : g.valid k.dist = true) :
    ∃ N N', Noise.new mem g k (some seed) rate m = .ok N ∧ Noise.new mem' g k (some seed) rate (m + n) = .ok N' ∧
      ∀ i, i < m → N.signal.channels.get 0 i = N'.signal.channels.get 0 i := by
  obtain ⟨N, h1, -, -, -, -, -, -, h8⟩ := new_ok mem g k (some seed) rate m hv
  obtain ⟨N', k1, -, -, -, -, -, -, k8⟩ := new_ok mem' g k (some seed) rate (m + n) hv
  refine ⟨N, N', h1, k1, fun i hi => ?_⟩
  obtain ⟨s', e⟩ := samples_add g k.dist m n (g.default (some seed))
  have a := h8 i hi
  have b := k8 i (by omega)
  rw [e, List.getElem?_append_left (by rw [samples_length]; exact hi), a] at b
  exact Option.some.inj b

/-! ### the range of the samples -/

theorem triangular_range (l m r u : ℝ) (h1 : l ≤ m) (h2 : m ≤ r) (h3 : l < r) (hu : 0 ≤ u) (hu' : u ≤ 1) :
    l ≤ triangularSample l m r u ∧ triangularSample l m r u ≤ r := by
  have hrl : 0 < r - l := by linarith
  unfold triangularSample
  split
  · next h =>
    have h0 := Real.sqrt_nonneg (u * ((m - l) * (r - l)))
    refine ⟨by linarith, ?_⟩
    rw [le_div_iff₀ hrl] at h
    have : Real.sqrt (u * ((m - l) * (r - l))) ≤ m - l := by
      rw [Real.sqrt_le_iff]
      refine ⟨by linarith, ?_⟩
      nlinarith [mul_le_mul_of_nonneg_right h (show 0 ≤ m - l by linarith)]
    linarith
  · next h =>
    have h0 := Real.sqrt_nonneg ((1 - u) * ((r - m) * (r - l)))
    refine ⟨?_, by linarith⟩
    rw [not_le, div_lt_iff₀ hrl] at h
    have : Real.sqrt ((1 - u) * ((r - m) * (r - l))) ≤ r - m := by
      rw [Real.sqrt_le_iff]
      refine ⟨by linarith, ?_⟩
      have : (1 - u) * (r - l) ≤ r - m := by linarith
      nlinarith [mul_le_mul_of_nonneg_right this (show 0 ≤ r - m by linarith)]
    linarith

/-- the documented or well-known range of the samples of the signals -/
def InRange : Kind → ℝ → Prop
  | .uniform lower upper, x => lower ≤ x ∧ x < upper
  | .gaussian _ _, _ => True
  | .poisson _, x => ∃ n : ℕ, x = n
  | .laplace _ _, _ => True
  | .vonMises _ _, x => -Real.pi ≤ x ∧ x ≤ Real.pi
  | .triangular lower upper _, x => lower ≤ x ∧ x ≤ upper
  | .geometric _, x => ∃ n : ℕ, 1 ≤ n ∧ x = n
  | .hypergeometric acceptable nonAcceptable draws, x =>
    ∃ n : ℕ, x = n ∧ n ≤ acceptable ∧ n ≤ draws ∧ draws - n ≤ nonAcceptable
  | .binomial _ draws, x => ∃ n : ℕ, x = n ∧ n ≤ draws
  | .beta _ _, x => 0 ≤ x ∧ x ≤ 1
  | .gamma _ _, x => 0 ≤ x
  | .logarithmic _, x => ∃ n : ℕ, 1 ≤ n ∧ x = n
  | .logistic _ _, _ => True
  | .lomax _, x => 0 ≤ x
  | .wald _ _, x => 0 ≤ x
  | .chiSquare _, x => 0 ≤ x

/-- C98: The samples are in the range, that is given by the parameters, unless the boundaries of the uniform noise are equal. -/
theorem C98_range_partial (mem : Nat → Nat → ℝ) (g : Rng S σ) (u : σ → ℝ) (hg : g.Ok u) (k : Kind) (seed : Option S)
    (rate : ℝ) (length : Nat) (N : Noise S) (hN : Noise.new mem g k seed rate length = .ok N)
    (hk : ∀ l, k ≠ .uniform l l) (i : Nat) (hi : i < length) : InRange k (N.signal.channels.get 0 i) := by
  have hv : g.valid k.dist = true := by
    by_contra hv
    unfold Noise.new Rng.draw at hN
    dsimp only at hN
    rw [if_neg hv] at hN
    cases hN
  obtain ⟨N', h1, -, -, -, -, -, -, h8⟩ := new_ok mem g k seed rate length hv
  rw [h1] at hN
  cases hN
  obtain ⟨s, e⟩ := samples_mem g k.dist length _ _ (List.mem_of_getElem? (h8 i hi))
  rw [e]
  cases k with
  | uniform l h =>
    have hlt : l < h := lt_of_le_of_ne ((hg.uniform_valid l h).mp hv) fun hl => hk l (by rw [hl])
    obtain ⟨u1, u2⟩ := hg.unit s
    show l ≤ (g.next (.uniform l h) s).1 ∧ (g.next (.uniform l h) s).1 < h
    rw [hg.uniform]
    constructor
    · nlinarith
    · nlinarith
  | gaussian => trivial
  | poisson l => exact hg.poisson l s
  | laplace => trivial
  | vonMises m k => exact hg.vonmises m k s
  | triangular l r m =>
    obtain ⟨u1, u2⟩ := hg.unit s
    show l ≤ (g.next (.triangular l _ r) s).1 ∧ (g.next (.triangular l _ r) s).1 ≤ r
    rw [hg.triangular]
    obtain ⟨v1, v2, v3⟩ := (hg.triangular_valid l _ r).mp hv
    exact triangular_range l _ r _ v1 v2 (lt_of_le_of_ne (le_trans v1 v2) v3) u1 u2.le
  | geometric p => exact hg.geometric p s
  | hypergeometric a b n =>
    obtain ⟨k, k1, k2, k3, k4⟩ := hg.hypergeometric a b n s ((hg.hypergeometric_valid a b n).mp hv)
    exact ⟨k, k4, k1, k2, by omega⟩
  | binomial p n =>
    obtain ⟨k, k1, k2⟩ := hg.binomial n p s
    exact ⟨k, k2, k1⟩
  | beta a b => exact hg.beta a b s
  | gamma a b => exact hg.gamma a b s
  | logarithmic p => exact hg.logseries p s
  | logistic => trivial
  | lomax a => exact hg.pareto a s
  | wald a b => exact hg.wald a b s
  | chiSquare d => exact hg.chisquare d s

/-- C98: With equal boundaries, the samples of the uniform noise are not smaller than the upper boundary. -/
theorem C98_uniform_violated (mem : Nat → Nat → ℝ) (g : Rng S σ) (u : σ → ℝ) (hg : g.Ok u) (l : ℝ) (seed : Option S)
    (rate : ℝ) :
    ∃ N, Noise.new mem g (.uniform l l) seed rate 1 = .ok N ∧ N.signal.channels.get 0 0 = l ∧
      ¬ InRange (.uniform l l) (N.signal.channels.get 0 0) := by
  obtain ⟨N, h1, -, -, -, -, -, -, h8⟩ := new_ok mem g (.uniform l l) seed rate 1 ((hg.uniform_valid l l).mpr le_rfl)
  obtain ⟨s, e⟩ := samples_mem g _ 1 _ _ (List.mem_of_getElem? (h8 0 (by omega)))
  have : N.signal.channels.get 0 0 = l := by
    rw [e]
    show (g.next (.uniform l l) s).1 = l
    rw [hg.uniform]
    ring
  refine ⟨N, h1, this, fun h => ?_⟩
  rw [this] at h
  exact lt_irrefl _ h.2

/-! ### the distribution of the samples -/

/-- C98: The uniform noise is distributed uniformly between the boundaries. -/
theorem C98_uniform_distribution (g : Rng S σ) (u : σ → ℝ) (hg : g.Ok u) (l h x : ℝ) (hlt : l < h) (s : σ) :
    (g.next (Kind.uniform l h).dist s).1 ≤ x ↔ u s ≤ (x - l) / (h - l) := by
  show (g.next (.uniform l h) s).1 ≤ x ↔ _
  rw [hg.uniform, le_div_iff₀ (by linarith)]
  constructor <;> intro hx <;> linarith

/-- C98: Without a mode, the triangular noise can be created for all boundaries, the lower one of which is smaller than the
upper one. Its distribution is symmetric to the middle between the boundaries. -/
theorem C98_triangular_default (g : Rng S σ) (u : σ → ℝ) (hg : g.Ok u) (l r : ℝ) (h : l < r) :
    g.valid (Kind.triangular l r none).dist = true ∧
    ∀ s s', u s ≠ 1 / 2 → u s' = 1 - u s →
      (g.next (Kind.triangular l r none).dist s').1 = l + r - (g.next (Kind.triangular l r none).dist s).1 := by
  constructor
  · exact (hg.triangular_valid l _ r).mpr ⟨by show l ≤ (l + r) / 2; linarith, by show (l + r) / 2 ≤ r; linarith, h.ne⟩
  · intro s s' hv hs
    show (g.next (.triangular l ((l + r) / 2) r) s').1 = l + r - (g.next (.triangular l ((l + r) / 2) r) s).1
    rw [hg.triangular, hg.triangular, hs]
    generalize u s = v at hv
    have hrl : 0 < r - l := by linarith
    have e : ((l + r) / 2 - l) / (r - l) = 1 / 2 := by
      field_simp
      ring
    have e1 : (l + r) / 2 - l = (r - l) / 2 := by ring
    have e2 : r - (l + r) / 2 = (r - l) / 2 := by ring
    unfold triangularSample
    rw [e, e1, e2]
    rcases lt_or_gt_of_ne hv with h' | h'
    · rw [if_neg (by linarith), if_pos h'.le, show 1 - (1 - v) = v by ring]
      ring
    · rw [if_pos (by linarith), if_neg (by linarith)]
      ring

/-- the distribution function of a triangular distribution -/
noncomputable def triangularCdf (l m r x : ℝ) : ℝ :=
  if x ≤ m then (x - l) ^ 2 / ((r - l) * (m - l)) else 1 - (r - x) ^ 2 / ((r - l) * (r - m))

theorem triangular_distribution (l m r u x : ℝ) (h1 : l < m) (h2 : m < r) (hu : 0 ≤ u) (hu' : u ≤ 1) (hx : l ≤ x)
    (hx' : x ≤ r) : triangularSample l m r u ≤ x ↔ u ≤ triangularCdf l m r x := by
  have a : 0 < m - l := by linarith
  have b : 0 < r - m := by linarith
  have c : 0 < r - l := by linarith
  have hlow : u ≤ (m - l) / (r - l) → l ≤ triangularSample l m r u ∧ triangularSample l m r u ≤ m := by
    intro h
    unfold triangularSample
    rw [if_pos h]
    have h0 := Real.sqrt_nonneg (u * ((m - l) * (r - l)))
    refine ⟨by linarith, ?_⟩
    rw [le_div_iff₀ c] at h
    have : Real.sqrt (u * ((m - l) * (r - l))) ≤ m - l := by
      rw [Real.sqrt_le_iff]
      exact ⟨a.le, by nlinarith⟩
    linarith
  have hhigh : ¬ u ≤ (m - l) / (r - l) → m < triangularSample l m r u := by
    intro h
    unfold triangularSample
    rw [if_neg h]
    rw [not_le, div_lt_iff₀ c] at h
    have : Real.sqrt ((1 - u) * ((r - m) * (r - l))) < r - m := by
      rw [Real.sqrt_lt' b]
      have : (1 - u) * (r - l) < r - m := by linarith
      nlinarith
    linarith
  unfold triangularCdf
  by_cases hxm : x ≤ m
  · rw [if_pos hxm, le_div_iff₀ (mul_pos c a)]
    by_cases hm : u ≤ (m - l) / (r - l)
    · unfold triangularSample
      rw [if_pos hm, ← le_sub_iff_add_le', Real.sqrt_le_left (by linarith)]
      constructor <;> intro h <;> nlinarith
    · constructor
      · intro h
        linarith [hhigh hm]
      · intro h
        exfalso
        rw [not_le, div_lt_iff₀ c] at hm
        have : (x - l) ^ 2 ≤ (m - l) ^ 2 := by
          apply pow_le_pow_left₀ <;> linarith
        nlinarith
  · rw [if_neg hxm]
    rw [not_le] at hxm
    by_cases hm : u ≤ (m - l) / (r - l)
    · constructor
      · intro _
        have h3 : (r - x) ^ 2 / ((r - l) * (r - m)) ≤ (r - m) / (r - l) := by
          rw [div_le_div_iff₀ (mul_pos c b) c]
          have : (r - x) ^ 2 ≤ (r - m) ^ 2 := by
            apply pow_le_pow_left₀ <;> linarith
          nlinarith
        have h4 : (m - l) / (r - l) = 1 - (r - m) / (r - l) := by
          field_simp
          ring
        linarith
      · intro _
        linarith [(hlow hm).2]
    · unfold triangularSample
      rw [if_neg hm, sub_le_comm, Real.le_sqrt (by linarith), le_sub_comm, div_le_iff₀ (mul_pos c b)]
      · constructor <;> intro h <;> nlinarith
      · exact mul_nonneg (by linarith) (mul_pos b c).le

/-- C98: The samples of the triangular noise have a triangular distribution, whose peak is at the mode. -/
theorem C98_triangular_distribution (g : Rng S σ) (u : σ → ℝ) (hg : g.Ok u) (l r m x : ℝ) (h1 : l < m) (h2 : m < r)
    (hx : l ≤ x) (hx' : x ≤ r) (s : σ) :
    (g.next (Kind.triangular l r (some m)).dist s).1 ≤ x ↔ u s ≤ triangularCdf l m r x := by
  show (g.next (.triangular l m r) s).1 ≤ x ↔ _
  rw [hg.triangular]
  exact triangular_distribution l m r (u s) x h1 h2 (hg.unit s).1 (hg.unit s).2.le hx hx'

/-- the mean values, that are documented by numpy -/
noncomputable def Dist.mean : Dist → Option ℝ
  | .uniform low high => some ((low + high) / 2)
  | .normal loc _ => some loc
  | .poisson lam => some lam
  | .laplace loc _ => some loc
  | .triangular left mode right => some ((left + mode + right) / 3)
  | .geometric p => some (1 / p)
  | .hypergeometric ngood nbad nsample => some (nsample * (ngood / ((ngood : ℝ) + nbad)))
  | .binomial n p => some (n * p)
  | .beta a b => some (a / (a + b))
  | .gamma shape scale => some (shape * scale)
  | .logistic loc _ => some loc
  | .wald mean _ => some mean
  | .chisquare df => some df
  | _ => none

/-- C98: The parameters, that are documented as the mean value, are the mean values of the distributions; the mean value of
the symmetric distributions is the middle between the boundaries; the mean value of the distributions of numbers of successes
is the number of draws times the probability of a success. -/
theorem C98_mean (a b c : ℝ) (k m n : ℕ) :
    (Kind.gaussian a b).dist.mean = some a ∧ (Kind.laplace a b).dist.mean = some a ∧ (Kind.poisson a).dist.mean = some a ∧
    (Kind.logistic a b).dist.mean = some a ∧ (Kind.wald a b).dist.mean = some a ∧
    (Kind.uniform a b).dist.mean = some ((a + b) / 2) ∧ (Kind.triangular a b none).dist.mean = some ((a + b) / 2) ∧
    (Kind.triangular a b (some c)).dist.mean = some ((a + b + c) / 3) ∧
    (Kind.binomial a n).dist.mean = some (n * a) ∧
    (Kind.hypergeometric k m n).dist.mean = some (n * (k / ((k : ℝ) + m))) ∧
    (Kind.gamma a b).dist.mean = some (a * b) ∧ (Kind.beta a b).dist.mean = some (a / (a + b)) ∧
    (Kind.chiSquare a).dist.mean = some a ∧ (Kind.geometric a).dist.mean = some (1 / a) := by
  refine ⟨rfl, rfl, rfl, rfl, rfl, rfl, ?_, ?_, rfl, rfl, rfl, rfl, rfl, rfl⟩
  · show some ((a + (a + b) / 2 + b) / 3) = _
    congr 1
    ring
  · show some ((a + c + b) / 3) = _
    congr 1
    ring

/-- A generator with two states, which alternates between `0` and `1/2`, fulfils the assumptions. -/
example : ∃ (g : Rng Nat Bool) (u : Bool → ℝ), g.Ok u ∧ g.valid (Kind.triangular 0 4 none).dist = true := by
  classical
  let u : Bool → ℝ := fun b => if b then 1 / 2 else 0
  let f : Dist → Bool → ℝ := fun d s => match d with
    | .uniform l h => l + (h - l) * u s
    | .triangular l m r => triangularSample l m r (u s)
    | .hypergeometric _ b n => (n - b : ℕ)
    | .poisson _ => 1
    | .geometric _ => 1
    | .logseries _ => 1
    | _ => 0
  let valid : Dist → Bool := fun d => match d with
    | .uniform l h => decide (l ≤ h)
    | .triangular l m r => decide (l ≤ m ∧ m ≤ r ∧ l ≠ r)
    | .hypergeometric a b n => decide (n ≤ a + b)
    | _ => true
  have hu : ∀ s, 0 ≤ u s ∧ u s < 1 := by
    intro s
    cases s <;> norm_num [u]
  refine ⟨⟨fun n => n % 2 == 0, true, valid, fun d s => (f d s, !s)⟩, u, ⟨hu, ?_, fun _ _ _ => rfl, ?_, fun _ _ _ _ => rfl,
    fun _ _ => ⟨1, by simp [f]⟩, fun _ _ _ => ⟨by simpa [f] using Real.pi_pos.le, by simpa [f] using Real.pi_pos.le⟩,
    fun _ _ => ⟨1, le_rfl, by simp [f]⟩, ?_, fun a b n _ h => ⟨n - b, by omega, by omega, le_rfl, rfl⟩,
    fun n _ _ => ⟨0, by omega, by simp [f]⟩, fun _ _ _ => ⟨by simp [f], by simp [f]⟩, fun _ _ _ => by simp [f],
    fun _ _ => ⟨1, le_rfl, by simp [f]⟩, fun _ _ => by simp [f], fun _ _ _ => by simp [f], fun _ _ => by simp [f]⟩, ?_⟩
  · intro l h
    exact decide_eq_true_iff
  · intro l m r
    exact decide_eq_true_iff
  · intro a b n
    exact decide_eq_true_iff
  · show decide ((0 : ℝ) ≤ (0 + 4) / 2 ∧ (0 + 4 : ℝ) / 2 ≤ 4 ∧ (0 : ℝ) ≠ 4) = true
    rw [decide_eq_true_iff]
    norm_num

end Noise
end Verif

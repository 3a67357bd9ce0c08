import Verif.Signal
import Mathlib.Data.Real.Sqrt

/-
Model of the noise signals (`/repo/sumpf/_data/_signals/_noise.py`) with real numbers instead of floats. The generator of
random numbers of numpy is a parameter, see `Rng`.
-/

namespace Verif
namespace Noise

/-- the calls of the methods of `numpy.random.Generator` with their parameters, without `size` -/
inductive Dist where
  | uniform (low high : ℝ)
  | normal (loc scale : ℝ)
  | poisson (lam : ℝ)
  | laplace (loc scale : ℝ)
  | vonmises (mu kappa : ℝ)
  | triangular (left mode right : ℝ)
  | geometric (p : ℝ)
  | hypergeometric (ngood nbad nsample : ℕ)
  | binomial (n : ℕ) (p : ℝ)
  | beta (a b : ℝ)
  | gamma (shape scale : ℝ)
  | logseries (p : ℝ)
  | logistic (loc scale : ℝ)
  | pareto (a : ℝ)
  | wald (mean scale : ℝ)
  | chisquare (df : ℝ)

/-- `numpy.random.Generator`: `σ` is the type of the states, `S` that of the seeds. `entropy` is the state of a generator
without a seed, which comes from the operating system. `valid` tells, if the parameters are accepted; otherwise a `ValueError`
is raised. -/
structure Rng (S σ : Type) where
  seeded : S → σ
  entropy : σ
  valid : Dist → Bool
  next : Dist → σ → ℝ × σ

variable {S σ : Type}

/-- `numpy.random.default_rng(seed)` -/
def Rng.default (g : Rng S σ) : Option S → σ
  | some s => g.seeded s
  | none => g.entropy

/-- the samples, that are drawn one after the other -/
def Rng.samples (g : Rng S σ) (d : Dist) : Nat → σ → List ℝ
  | 0, _ => []
  | n + 1, s => (g.next d s).1 :: g.samples d n (g.next d s).2

/-- a method of the generator with the parameter `size` -/
def Rng.draw (g : Rng S σ) (d : Dist) (size : Nat) (s : σ) : Py (Mat ℝ) :=
  if g.valid d then .ok ⟨1, size, fun _ i => (g.samples d size s).getD i 0⟩ else .error .valueError

/-- the classes of noise signals with the parameters of their constructors, without `seed`, `sampling_rate` and `length` -/
inductive Kind where
  | uniform (lower upper : ℝ)
  | gaussian (mean standardDeviation : ℝ)
  | poisson (lambda : ℝ)
  | laplace (mean decay : ℝ)
  | vonMises (mode dispersion : ℝ)
  | triangular (lower upper : ℝ) (mode : Option ℝ)
  | geometric (p : ℝ)
  | hypergeometric (acceptable nonAcceptable draws : ℕ)
  | binomial (p : ℝ) (draws : ℕ)
  | beta (alpha beta : ℝ)
  | gamma (shape scale : ℝ)
  | logarithmic (p : ℝ)
  | logistic (mean scale : ℝ)
  | lomax (shape : ℝ)
  | wald (mean scale : ℝ)
  | chiSquare (degreesOfFreedom : ℝ)

/-- the `_function` methods with the attributes, that are set in the constructors (`_noise.py:68-450`) -/
noncomputable def Kind.dist : Kind → Dist
  | .uniform lower upper => .uniform lower upper                                  -- `_noise.py:84-90`
  | .gaussian mean sd => .normal mean sd                                          -- `_noise.py:107-113`
  | .poisson l => .poisson l                                                      -- `_noise.py:130-135`
  | .laplace mean decay => .laplace mean decay                                    -- `_noise.py:153-159`
  | .vonMises mode dispersion => .vonmises mode dispersion                        -- `_noise.py:176-182`
  | .triangular lower upper mode =>                                               -- `_noise.py:202-215`
    let mode := match mode with
      | none => (lower + upper) / 2
      | some m => m
    .triangular lower mode upper
  | .geometric p => .geometric p                                                  -- `_noise.py:231-236`
  | .hypergeometric a b n => .hypergeometric a b n                                -- `_noise.py:259-269`
  | .binomial p draws => .binomial draws p                                        -- `_noise.py:286-292`
  | .beta a b => .beta a b                                                        -- `_noise.py:309-315`
  | .gamma shape scale => .gamma shape scale                                      -- `_noise.py:332-338`
  | .logarithmic p => .logseries p                                                -- `_noise.py:354-359`
  | .logistic mean scale => .logistic mean scale                                  -- `_noise.py:376-382`
  | .lomax shape => .pareto shape                                                 -- `_noise.py:398-403`
  | .wald mean scale => .wald mean scale                                          -- `_noise.py:420-426`
  | .chiSquare df => .chisquare df                                                -- `_noise.py:444-450`

/-- the labels (`_noise.py:87-446`) -/
def Kind.label : Kind → String
  | .uniform .. => "Uniform noise"
  | .gaussian .. => "Gaussian noise"
  | .poisson .. => "Poisson noise"
  | .laplace .. => "Laplace noise"
  | .vonMises .. => "von Mises noise"
  | .triangular .. => "Triangular noise"
  | .geometric .. => "Geometric noise"
  | .hypergeometric .. => "Hypergeometric noise"
  | .binomial .. => "Binomial noise"
  | .beta .. => "Beta noise"
  | .gamma .. => "Gamma noise"
  | .logarithmic .. => "Logarithmic noise"
  | .logistic .. => "Logistic noise"
  | .lomax .. => "Lomax noise"
  | .wald .. => "Wald noise"
  | .chiSquare .. => "Chi-square noise"

/-- an instance of the class `Noise` with the seed, that is returned by `Noise.seed` (`_noise.py:56-61`) -/
structure Noise (S : Type) where
  signal : Signal ℝ ℝ
  seed : Option S

/-- the constructors of the derived classes and `Noise.__init__` (`_noise.py:36-45`) -/
noncomputable def Noise.new (mem : Nat → Nat → ℝ) (g : Rng S σ) (k : Kind) (seed : Option S) (rate : ℝ) (length : Nat) :
    Py (Noise S) := do
  let random := g.default seed
  let channels := alloc mem 1 length
  let samples ← g.draw k.dist length random
  let channels ← channels.assign .all .all samples
  return ⟨Signal.new channels rate 0 (some [k.label]), seed⟩

end Noise
end Verif

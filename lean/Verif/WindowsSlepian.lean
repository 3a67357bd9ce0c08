import Verif.WindowsChebyshev

/-
`sumpf.SlepianWindow` (`/repo/sumpf/_data/_signals/_windows_scipy.py:370-404`) and the function `dpss` of scipy, which is modelled
statement by statement. The solver `scipy.linalg.eigh_tridiagonal` is a parameter. The samples are exact real numbers.
-/

namespace Verif
namespace Windows

open Indexing Finset

/-- `scipy.linalg.eigh_tridiagonal(d, e, select="i", select_range=(M - 1, M - 1))`: the eigenvector, that belongs to the largest
eigenvalue of the symmetric tridiagonal matrix with the diagonal `d` and the off-diagonal `e`; parameters: `M`, `d`, `e` -/
abbrev Eigh := Nat → (Nat → ℝ) → (Nat → ℝ) → Nat → ℝ

/-- the array `d` in `scipy.signal.windows.dpss(M, NW=NW)` -/
noncomputable def dpssDiagonal (M : Nat) (W : ℝ) (n : Nat) : ℝ :=
  (((M : ℝ) - 1 - 2 * n) / 2) ^ 2 * Real.cos (2 * Real.pi * W)

/-- the array `e` in `dpss`: `nidx[1:] * (M - nidx[1:]) / 2` -/
noncomputable def dpssOffDiagonal (M n : Nat) : ℝ := ((n : ℝ) + 1) * (M - (n + 1)) / 2

/-- the only element of the array `windows` in `dpss` after its sign has been fixed -/
noncomputable def dpssSequence (eigh : Eigh) (M : Nat) (NW : ℝ) : Nat → ℝ :=
  let W := NW / M
  let v := eigh M (dpssDiagonal M W) (dpssOffDiagonal M)
  if ∑ n ∈ range M, v n < 0 then fun n => -v n else v

/-- the variable `correction` in `dpss` for the norm `"subsample"` -/
noncomputable def dpssCorrection (M : Nat) (w : Nat → ℝ) : ℝ :=
  let s : Nat → ℂ := fun k => ∑ n ∈ range M, (w n : ℂ) * Complex.exp (-2 * Real.pi * Complex.I * k * n / M)
  let shift : Nat → ℝ := fun k => -(1 - 1 / M) * k
  M / (s 0 + ∑ k ∈ range (M / 2), s (k + 1) * (2 * Complex.exp (-Complex.I * Real.pi * shift (k + 1)))).re

/-- `scipy.signal.windows.dpss(M, NW=NW, norm="subsample")` -/
noncomputable def dpss (eigh : Eigh) (M : Nat) (NW : ℝ) : Py (Nat → ℝ) :=
  if M ≤ 1 then return fun _ => 1
  else if NW ≥ M / 2 then throw .valueError
  else if NW ≤ 0 then throw .valueError
  else
    let v := dpssSequence eigh M NW
    let maximum := listMax ((List.range M).map v)
    let w : Nat → ℝ := fun n => v n / maximum
    if M % 2 = 0 then return fun n => w n * dpssCorrection M w
    else return w

/-- `SlepianWindow._function` (`_windows_scipy.py:397-401`) -/
noncomputable def slepian (eigh : Eigh) (beta : ℝ) (length : Nat) : Py (Nat → ℝ) :=
  if length ≤ 2 then return fun _ => 1
  else dpss eigh length (beta / Real.pi)

/-- the length, for which `Window.__init__` calls the method `_function` (`_windows.py:54-64`) -/
def functionLength (plateau : Int) (length : Nat) (symmetric : Bool) : Int :=
  if plateau = 0 then if symmetric then length else length + 1
  else
    let fadeLength := ((length : Int) - plateau) / 2
    if symmetric then 2 * fadeLength else 2 * fadeLength + 1

/-- `SlepianWindow.__init__` (`_windows_scipy.py:377-395`) with the label from `_label` (`_windows_scipy.py:403-404`) and
`Window.__init__` (`_windows.py:36-68`) -/
noncomputable def slepianWindow {R : Type} (mem : Nat → Nat → ℝ) (eigh : Eigh) (beta : ℝ) (plateau : Idx) (rate : R)
    (length : Nat) (symmetric : Bool) : Option (Py (Signal ℝ R × Int)) := do
  let p ← index length plateau
  match slepian eigh beta (functionLength p length symmetric).toNat with
  | .error e => return .error e
  | .ok w => new mem (fun _ => w) "Slepian window" plateau rate length symmetric

end Windows
end Verif

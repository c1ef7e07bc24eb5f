/- `np.isclose(a, b, rtol, atol)` for real or complex numbers. -/
import Mathlib.Analysis.RCLike.Basic

namespace Verif.Model

/-- numpy: `abs(a - b) <= atol + rtol * abs(b)` -/
noncomputable def isClose {K : Type} [RCLike K] (rtol atol : ℝ) (a b : K) : Bool :=
  decide (‖a - b‖ ≤ atol + rtol * ‖b‖)

end Verif.Model

/-
Contract of the factorisation inside `np.random.multivariate_normal`.
-/
import Verif.Spec.LinAlg

namespace Verif.Spec
open Matrix

/-- `np.random.multivariate_normal(mean, C)` multiplies independent standard normal variables by a factor `F` of the covariance matrix, `F Fᵀ = C`, for positive semidefinite `C`. -/
def FactorContract (factor : ℕ → RArr → RArr) : Prop :=
  ∀ n C, (toMatrix n n C).PosSemidef → toMatrix n n (factor n C) * (toMatrix n n (factor n C))ᵀ = toMatrix n n C

end Verif.Spec

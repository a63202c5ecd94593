import Verif.Spec.Sheppard
import Verif.Spec.Wave

/-!
# Specification: how many samples of Sheppard's cap lie above a lateral frequency
-/

namespace PyOTF.Physics

/-- Half the mean number of samples of the cap in a column above a lateral frequency.  `τ` is the ratio of the axial to the lateral frequency step; `τ = 1`: the inverse of the
cosine of the angle to the axis. -/
noncomputable def capThickness (τ K fy fx : ℝ) : ℝ := length3 (τ * axialAt K fy fx) fy fx / (τ * axialAt K fy fx)

end PyOTF.Physics

import Verif.Model.Round
import Verif.Model.Spatial

/-!
# `lla2flat` with rounding

Method 'matlab', spatial.py:252-268, for one point.  `sn` and `cs` are `np.sin` and `np.cos` as computed.
-/

namespace SST.Round
open SST SST.Spatial

variable (A : Arith)

/-- `np.deg2rad`: multiplication with the rounded constant `π / 180`. -/
noncomputable def deg2radF (x : ℝ) : ℝ := A.fl (x * A.fl (A.fl Real.pi / 180))

/-- `f`, spatial.py:260. -/
noncomputable def flatteningF : ℝ := A.fl (1 / A.fl 298.257223563)

/-- `2 * f - f ** 2`, spatial.py:262-263. -/
noncomputable def ecc2F : ℝ := A.fl (A.fl (2 * flatteningF A) - A.fl (flatteningF A ^ 2))

/-- `1 - (2 * f - f ** 2) * np.sin(mu0) ** 2` for the sine `s`, spatial.py:262-263. -/
noncomputable def denF (s : ℝ) : ℝ := A.fl (1 - A.fl (ecc2F A * A.fl (s ^ 2)))

/-- `Rn`, spatial.py:262. -/
noncomputable def primeF (s : ℝ) : ℝ := A.fl (rEarth / A.fl (Real.sqrt (denF A s)))

/-- `Rm`, spatial.py:263. -/
noncomputable def meridF (s : ℝ) : ℝ := A.fl (primeF A s * A.fl (A.fl (1 - ecc2F A) / denF A s))

/-- `lla2flat` with method 'matlab', spatial.py:252-268: `(dE, dN)`. -/
noncomputable def lla2flatF (sn cs : ℝ → ℝ) (lat lon latref lonref : ℝ) : ℝ × ℝ :=
  let mu0 := deg2radF A latref
  let lam0 := deg2radF A lonref
  let dmu := A.fl (deg2radF A lat - mu0)
  let dlam := A.fl (deg2radF A lon - lam0)
  (A.fl (A.fl (primeF A (sn mu0) * cs mu0) * dlam), A.fl (meridF A (sn mu0) * dmu))

end SST.Round

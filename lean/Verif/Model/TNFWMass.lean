import Verif.Model.Lenses

/-!
How a truncated NFW lens turns its `mass` parameter into the normalisation `M0` of its profile
(lenses/func/tnfw.py:6-46, 75-116 and lenses/tnfw.py:161-285).

`critical_density` and `d_l` are what the class asks of its cosmology at the lens redshift.
-/

open Real

namespace Caustics

/-- lenses/func/tnfw.py:6-46. -/
noncomputable def tnfwConcentration (mass Rs rhoc d_l Delta : ℝ) : ℝ :=
  (3 * mass / (4 * π * Delta * rhoc)) ^ ((1 : ℝ) / 3) / (Rs * d_l * arcsecToRad)

/-- lenses/func/tnfw.py:75-76. -/
noncomputable def tnfwScaleDensity (c rhoc Delta : ℝ) : ℝ :=
  Delta / 3 * rhoc * c ^ 3 / (log (1 + c) - c / (1 + c))

/-- lenses/func/tnfw.py:79-83. -/
noncomputable def tnfwM0Tot (mass tau : ℝ) : ℝ :=
  mass * (tau ^ 2 + 1) ^ 2 /
    (tau ^ 2 * ((tau ^ 2 - 1) * log tau + π * tau - (tau ^ 2 + 1)))

/-- lenses/func/tnfw.py:86-116. -/
noncomputable def tnfwM0Scale (Rs c rhoc d_l Delta : ℝ) : ℝ :=
  4 * π * (Rs * d_l * arcsecToRad) ^ 3 * tnfwScaleDensity c rhoc Delta

/-- The module-level constant `DELTA`, lenses/tnfw.py:10. -/
def tnfwDelta : ℝ := 200

/-- The parameters of the class `TNFW` (lenses/tnfw.py:106-159) with what it asks of its
cosmology. -/
structure TNFWLens where
  interpretTotal : Bool
  Gc2 : ℝ
  x0 : ℝ
  y0 : ℝ
  mass : ℝ
  Rs : ℝ
  tau : ℝ
  s : ℝ
  rhoc : ℝ
  d_l : ℝ
  d_s : ℝ
  d_ls : ℝ
  sigmacr : ℝ

/-- `get_concentration`, lenses/tnfw.py:161-213. -/
noncomputable def TNFWLens.concentration (L : TNFWLens) : ℝ :=
  tnfwConcentration L.mass L.Rs L.rhoc L.d_l tnfwDelta

/-- `M0`, lenses/tnfw.py:234-262. -/
noncomputable def TNFWLens.M0 (L : TNFWLens) : ℝ :=
  if L.interpretTotal then tnfwM0Tot L.mass L.tau
  else
    let c := tnfwConcentration L.mass L.Rs L.rhoc L.d_l tnfwDelta
    tnfwM0Scale L.Rs c L.rhoc L.d_l tnfwDelta

/-- `get_scale_density`, lenses/tnfw.py:264-285. -/
noncomputable def TNFWLens.scaleDensity (L : TNFWLens) : ℝ :=
  let c := tnfwConcentration L.mass L.Rs L.rhoc L.d_l tnfwDelta
  tnfwScaleDensity c L.rhoc tnfwDelta

/-- What the class hands to the functional interface (lenses/tnfw.py:325-339, 412-416, 468-473). -/
noncomputable def TNFWLens.toTNFW (L : TNFWLens) : TNFW where
  Gc2 := L.Gc2
  x0 := L.x0
  y0 := L.y0
  M0 := L.M0
  Rs := L.Rs
  tau := L.tau
  d_l := L.d_l
  d_s := L.d_s
  d_ls := L.d_ls
  sigmacr := L.sigmacr
  s := L.s

/-- `mass_enclosed_2d`, lenses/tnfw.py:341-368. -/
noncomputable def TNFWLens.massEnclosed (L : TNFWLens) (r : ℝ) : ℝ :=
  tnfwMassEnclosed r L.Rs L.tau L.M0

end Caustics

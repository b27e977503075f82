import Verif.Model.Coord
import Mathlib.Analysis.SpecialFunctions.Pow.Real

/-! Light profiles: `light/func/sersic.py`, `light/func/star_source.py`. -/

namespace Caustics

/-- light/func/sersic.py:5-35 `k_sersic`. -/
noncomputable def kSersic (n : ℝ) : ℝ :=
  let x := 1 / n
  2 * n - 1 / 3 + x * (4 / 405 + x * (46 / 25515 + x * (131 / 1148175 - x * (2194697 / 30690717750))))

/-- light/func/sersic.py:38-57 `k_lenstronomy`. -/
noncomputable def kLenstronomy (n : ℝ) : ℝ := 1.9992 * n - 0.3271

/-- light/func/sersic.py:60-66 `brightness_sersic`. -/
noncomputable def brightnessSersic (x0 y0 q phi n Re Ie x y k s : ℝ) : ℝ :=
  let p := translateRotate x y x0 y0 (some phi)
  let e2 := toElliptical p.1 p.2 q
  let e := Real.sqrt (e2.1 ^ 2 + e2.2 ^ 2) + s
  let exponent := -k * ((e / Re) ^ (1 / n) - 1)
  Ie * Real.exp exponent

/-- light/sersic.py:195-251 `Sersic.brightness`; `lenstronomy` is the flag `use_lenstronomy_k`. -/
noncomputable def Sersic.brightness (lenstronomy : Bool) (s x0 y0 q phi n Re Ie x y : ℝ) : ℝ :=
  let k := if lenstronomy then kLenstronomy n else kSersic n
  brightnessSersic x0 y0 q phi n Re Ie x y k s

/-- light/func/star_source.py:5-16 `brightness_star`.  `none` is NaN: the square root of a negative
number, which `where` passes on if it is selected. -/
noncomputable def brightnessStar (x0 y0 thetaS Ie x y gamma : ℝ) : Option ℝ :=
  let p := translateRotate x y x0 y0 none
  let impact := Real.sqrt (p.1 ^ 2 + p.2 ^ 2)
  let mu : Option ℝ := if 1 - impact ^ 2 < 0 then none else some (Real.sqrt (1 - impact ^ 2))
  if impact ≤ thetaS then mu.map fun m => Ie * (1 - gamma * (1 - m)) else some 0

end Caustics

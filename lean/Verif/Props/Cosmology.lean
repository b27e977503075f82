import Verif.Model.Cosmology
import Mathlib.Tactic.LinearCombination

/-!
C21 reduced and physical deflections, C22 cosmological distances, C58 FlatLambdaCDM.
-/

namespace Caustics

open Real

/-! ### C21 -/

section
variable {K : Type} [Field K] [LinearOrder K]

omit [LinearOrder K] in
/-- C21: the two conversions are mutually inverse for non-zero distances. -/
theorem C21_round_trip (a : K × K) (dS dLs : K) (hS : dS ≠ 0) (hLs : dLs ≠ 0) :
    reducedFromPhysical (physicalFromReduced a dS dLs) dS dLs = a ∧
    physicalFromReduced (reducedFromPhysical a dS dLs) dS dLs = a := by
  constructor <;> ext <;> simp only [reducedFromPhysical, physicalFromReduced] <;> field_simp

/-- C21: a lens given by its reduced deflection returns physical deflections whose reduction is
the reduced deflection, and traces rays by subtracting `d_ls / d_s` times the physical one. -/
theorem C21_lens_consistent (e : MPEnv K) (zs : K) (l : ThinLensFn K)
    (hS : e.angDist zs ≠ 0) (hLs : e.angDist12 l.z zs ≠ 0) (x y : K) :
    reducedFromPhysical (l.physical e zs x y) (e.angDist zs) (e.angDist12 l.z zs)
        = l.reduced x y ∧
    l.raytrace x y =
      (x - e.angDist12 l.z zs / e.angDist zs * (l.physical e zs x y).1,
       y - e.angDist12 l.z zs / e.angDist zs * (l.physical e zs x y).2) := by
  constructor
  · exact (C21_round_trip (l.reduced x y) _ _ hS hLs).1
  · ext <;> simp only [ThinLensFn.raytrace, ThinLensFn.physical, physicalFromReduced] <;>
      field_simp

/-- C21: a lens defined by its physical deflection (as NFW, TNFW and EnclosedMass are) gets back
that physical deflection from the reduced one it reports. -/
theorem C21_physical_first (e : MPEnv K) (zs z : K) (phys : K → K → K × K) (psi : K → K → K)
    (hS : e.angDist zs ≠ 0) (hLs : e.angDist12 z zs ≠ 0) (x y : K) :
    let l : ThinLensFn K :=
      ⟨z, fun x y => reducedFromPhysical (phys x y) (e.angDist zs) (e.angDist12 z zs), psi⟩
    l.physical e zs x y = phys x y :=
  (C21_round_trip (phys x y) _ _ hS hLs).2

end

/-- Distances 3 and 2, deflection (5, 7). -/
example : physicalFromReduced ((5 : ℝ), (7 : ℝ)) 3 2 = (15 / 2, 21 / 2) ∧
    reducedFromPhysical ((15 / 2 : ℝ), (21 / 2 : ℝ)) 3 2 = (5, 7) := by
  constructor <;> ext <;> norm_num [physicalFromReduced, reducedFromPhysical]

/-! ### C22 -/

namespace Cosmo

/-- Distances from the observer vanish at redshift zero and increase with redshift. -/
def Increasing (c : Cosmo) : Prop :=
  c.comoving 0 = 0 ∧ ∀ z z', 0 ≤ z → z < z' → c.comoving z < c.comoving z'

end Cosmo

/-- C22: comoving distances between redshifts are additive, antisymmetric, vanish on the
diagonal, and are distances from the observer when the first redshift is zero. -/
theorem C22_comoving (c : Cosmo) (z1 z2 z3 : ℝ) :
    c.comoving12 z1 z2 + c.comoving12 z2 z3 = c.comoving12 z1 z3 ∧
    c.comoving12 z2 z1 = -c.comoving12 z1 z2 ∧ c.comoving12 z1 z1 = 0 ∧
    (c.comoving 0 = 0 → c.comoving12 0 z2 = c.comoving z2) := by
  refine ⟨?_, ?_, ?_, ?_⟩
  · unfold Cosmo.comoving12; ring
  · unfold Cosmo.comoving12; ring
  · unfold Cosmo.comoving12; ring
  · intro h; unfold Cosmo.comoving12; rw [h, sub_zero]

/-- C22: the same for transverse comoving distances. -/
theorem C22_transverse (c : Cosmo) (z1 z2 z3 : ℝ) :
    c.transverse12 z1 z2 + c.transverse12 z2 z3 = c.transverse12 z1 z3 ∧
    c.transverse12 z2 z1 = -c.transverse12 z1 z2 ∧ c.transverse12 z1 z1 = 0 ∧
    (c.transverse 0 = 0 → c.transverse12 0 z2 = c.transverse z2) := by
  refine ⟨?_, ?_, ?_, ?_⟩
  · unfold Cosmo.transverse12; ring
  · unfold Cosmo.transverse12; ring
  · unfold Cosmo.transverse12; ring
  · intro h; unfold Cosmo.transverse12; rw [h, sub_zero]

/-- C22: angular diameter distances add up after multiplication by `1 + z` of the far end, and
from the observer they are the plain angular diameter distance. -/
theorem C22_angular (c : Cosmo) (z1 z2 z3 : ℝ) (h2 : 1 + z2 ≠ 0) (h3 : 1 + z3 ≠ 0) :
    (1 + z3) * c.angular12 z1 z3 = (1 + z2) * c.angular12 z1 z2 + (1 + z3) * c.angular12 z2 z3 ∧
    (1 + z3) * c.angular12 z1 z3 = (1 + z3) * c.angular z3 - c.comoving z1 ∧
    (c.comoving 0 = 0 → c.angular12 0 z2 = c.angular z2) := by
  refine ⟨?_, ?_, ?_⟩
  · unfold Cosmo.angular12 Cosmo.comoving12
    field_simp
    ring
  · unfold Cosmo.angular12 Cosmo.angular Cosmo.comoving12
    field_simp
  · intro h
    unfold Cosmo.angular12 Cosmo.angular
    rw [(C22_comoving c 0 z2 0).2.2.2 h]

/-- C22: time delay distance in terms of comoving distances, and its relation to the critical
surface density and to the arcsec²-to-days factor used for time delays. -/
theorem C22_time_delay_distance (c : Cosmo) (zl zs : ℝ) (hl : 1 + zl ≠ 0) (hs : 1 + zs ≠ 0)
    (hG : c.GOverC2 ≠ 0) (hdl : c.comoving zl ≠ 0) :
    c.timeDelayDistance zl zs
      = c.comoving zl * c.comoving zs / (c.comoving zs - c.comoving zl) ∧
    c.criticalSurfaceDensity zl zs * (4 * π * c.GOverC2) * (1 + zl) * c.angular zl ^ 2
      = c.timeDelayDistance zl zs := by
  have hpi := Real.pi_ne_zero
  by_cases hd : c.comoving zs - c.comoving zl = 0
  · simp [Cosmo.timeDelayDistance, Cosmo.criticalSurfaceDensity, Cosmo.angular12,
      Cosmo.comoving12, hd]
  · constructor
    · unfold Cosmo.timeDelayDistance Cosmo.angular Cosmo.angular12 Cosmo.comoving12
      field_simp
    · unfold Cosmo.timeDelayDistance Cosmo.criticalSurfaceDensity Cosmo.angular Cosmo.angular12
        Cosmo.comoving12
      field_simp

/-- C22: the time delay factor is the time delay distance over `c`. -/
theorem C22_delay_factor (c : Cosmo) (e : MPEnv ℝ) (zl zs : ℝ) :
    e.arcsec2ToDays (c.angular zl) (c.angular zs) (c.angular12 zl zs) zl
      = c.timeDelayDistance zl zs / e.cMpcS * e.arcsecToRad ^ 2 / e.daysToSeconds := by
  unfold MPEnv.arcsec2ToDays Cosmo.timeDelayDistance
  ring

/-- C22: with increasing distances everything is positive for `0 < z_l < z_s`, and the angular
diameter distance between lens and source is smaller than the one to the source. -/
theorem C22_positive (c : Cosmo) (hc : c.Increasing) (hG : 0 < c.GOverC2) (zl zs : ℝ)
    (h0 : 0 < zl) (hls : zl < zs) :
    0 < c.comoving12 zl zs ∧ 0 < c.angular zl ∧ 0 < c.angular zs ∧ 0 < c.angular12 zl zs ∧
    c.angular12 zl zs < c.angular zs ∧
    0 < c.timeDelayDistance zl zs ∧ 0 < c.criticalSurfaceDensity zl zs := by
  have hzs : 0 < zs := h0.trans hls
  have hl : 0 < c.comoving zl := by have := hc.2 0 zl le_rfl h0; rwa [hc.1] at this
  have hs : c.comoving zl < c.comoving zs := hc.2 zl zs h0.le hls
  have h1 : 0 < c.comoving12 zl zs := by unfold Cosmo.comoving12; linarith
  have h2 : 0 < c.angular zl := by unfold Cosmo.angular; positivity
  have h3 : 0 < c.angular zs := by
    unfold Cosmo.angular; exact div_pos (hl.trans hs) (by linarith)
  have h4 : 0 < c.angular12 zl zs := by unfold Cosmo.angular12; positivity
  have hpi := Real.pi_pos
  refine ⟨h1, h2, h3, h4, ?_, ?_, ?_⟩
  · unfold Cosmo.angular12 Cosmo.angular Cosmo.comoving12
    apply div_lt_div_of_pos_right _ (by linarith)
    linarith
  · unfold Cosmo.timeDelayDistance; positivity
  · unfold Cosmo.criticalSurfaceDensity; positivity

/-! ### C58 FlatLambdaCDM -/

/-- C58: the comoving distance to redshift zero is zero. -/
theorem C58_zero (f : FlatLambda) : f.comovingDistance 0 = 0 := by
  simp [FlatLambda.comovingDistance]

/-- C58: distances increase with redshift when the tabulated helper is increasing, so the
cosmology satisfies the hypothesis of `C22_positive`. -/
theorem C58_increasing (f : FlatLambda) (G : ℝ) (hh : 0 < f.h0) (hO : 0 < f.Om0) (hO1 : f.Om0 < 1)
    (hc : 0 < f.cMpcS) (hk : 0 < f.kmToMpc)
    (hm : ∀ a b, 0 < a → a < b → f.helper a < f.helper b) : (f.cosmo G).Increasing := by
  refine ⟨C58_zero f, ?_⟩
  intro z z' hz hzz
  have hOde : 0 < 1 - f.Om0 := by linarith
  have hratio : 0 < (f.Om0 / (1 - f.Om0)) ^ (1 / 3 : ℝ) := by positivity
  have h1 := hm ((1 + z) * (f.Om0 / (1 - f.Om0)) ^ (1 / 3 : ℝ))
    ((1 + z') * (f.Om0 / (1 - f.Om0)) ^ (1 / 3 : ℝ)) (by positivity)
    (mul_lt_mul_of_pos_right (by linarith) hratio)
  simp only [FlatLambda.cosmo, FlatLambda.comovingDistance, FlatLambda.hubbleDistance]
  apply div_lt_div_of_pos_right _ (by positivity)
  apply mul_lt_mul_of_pos_left _ (by positivity)
  linarith

/-- C58: distances scale inversely with the Hubble constant. -/
theorem C58_hubble_scaling (f : FlatLambda) (s : ℝ) (_hs : s ≠ 0) (_hh : f.h0 ≠ 0) (z : ℝ) :
    ({ f with h0 := s * f.h0 } : FlatLambda).comovingDistance z = f.comovingDistance z / s := by
  unfold FlatLambda.comovingDistance FlatLambda.hubbleDistance
  simp only
  rw [div_mul_eq_div_div_swap]
  ring

/-- C58: the critical density is the given one today and increases with redshift. -/
theorem C58_critical_density (f : FlatLambda) (hr : 0 < f.rhoCrit0) (hO : 0 < f.Om0) :
    f.criticalDensity 0 = f.rhoCrit0 ∧
    ∀ z z', 0 ≤ z → z < z' → f.criticalDensity z < f.criticalDensity z' := by
  constructor
  · simp [FlatLambda.criticalDensity]
  · intro z z' hz hzz
    unfold FlatLambda.criticalDensity
    apply mul_lt_mul_of_pos_left _ hr
    have : (1 + z) ^ 3 < (1 + z') ^ 3 := pow_lt_pow_left₀ (by linarith) (by linarith) (by norm_num)
    have := mul_lt_mul_of_pos_left this hO
    linarith

/-- A cosmology meeting all hypotheses. -/
example : ∃ f : FlatLambda, 0 < f.h0 ∧ 0 < f.Om0 ∧ f.Om0 < 1 ∧ 0 < f.cMpcS ∧ 0 < f.kmToMpc ∧
    0 < f.rhoCrit0 ∧ (∀ a b, 0 < a → a < b → f.helper a < f.helper b) ∧
    (f.cosmo 1).comoving 1 ≠ 0 := by
  refine ⟨⟨0.7, 1, 0.3, 1, 1, id⟩, by norm_num, by norm_num, by norm_num, by norm_num, by norm_num,
    by norm_num, fun a b _ h => h, ?_⟩
  have := (C58_increasing ⟨0.7, 1, 0.3, 1, 1, id⟩ 1 (by norm_num) (by norm_num) (by norm_num)
    (by norm_num) (by norm_num) (fun a b _ h => h)).2 0 1 le_rfl one_pos
  rw [show ((FlatLambda.cosmo ⟨0.7, 1, 0.3, 1, 1, id⟩ 1).comoving 0) = 0 from C58_zero _] at this
  exact ne_of_gt this

end Caustics

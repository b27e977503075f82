import Verif.Lemmas.TNFWTotal
import Verif.Props.LensHalo
import Mathlib.MeasureTheory.Integral.IntervalIntegral.FundThmCalculus

/-!
What the `mass` parameter of the halo lenses means (C63), and the truncated NFW lens whose
truncation radius is taken to infinity (C64).
-/

open Real Filter Topology

namespace Caustics

/-- Physical parameters of a truncated NFW lens; the critical surface density is the one of the same
distances (cosmology/base.py:257-288). -/
structure TNFWLens.Ok (L : TNFWLens) : Prop where
  G : 0 < L.Gc2
  mass : 0 < L.mass
  Rs : 0 < L.Rs
  tau : 0 < L.tau
  rhoc : 0 < L.rhoc
  d_l : 0 < L.d_l
  d_s : 0 < L.d_s
  d_ls : 0 < L.d_ls
  sigmacr : L.sigmacr = L.d_s / (4 * π * L.Gc2 * L.d_l * L.d_ls)

/-! ### C63: what the mass parameter means -/

/-- With `interpret_m_total_mass=True` the mass reported inside a circle tends to the parameter
`mass` as the circle grows. -/
theorem C63_tnfw_total (L : TNFWLens) (hL : L.Ok) (hi : L.interpretTotal = true) :
    Tendsto L.massEnclosed atTop (𝓝 L.mass) := by
  have hb := (tendsto_tnfwBracket hL.tau).comp (tendsto_id.atTop_div_const hL.Rs)
  have hn := tnfw_norm_pos hL.tau
  have ht := hL.tau
  have hlim := hb.const_mul (L.M0 * (L.tau ^ 2 / (L.tau ^ 2 + 1) ^ 2))
  have he : L.M0 * (L.tau ^ 2 / (L.tau ^ 2 + 1) ^ 2)
      * ((L.tau ^ 2 - 1) * log L.tau + π * L.tau - (L.tau ^ 2 + 1)) = L.mass := by
    rw [TNFWLens.M0, if_pos hi, tnfwM0Tot]
    generalize (L.tau ^ 2 - 1) * log L.tau + π * L.tau - (L.tau ^ 2 + 1) = n at *
    field_simp
  rw [he] at hlim
  refine hlim.congr' ?_
  filter_upwards [eventually_gt_atTop (2 * L.Rs)] with r hr
  have hg : 2 < r / L.Rs := by rw [lt_div_iff₀ hL.Rs]; exact hr
  have hw : 1e-2 < |r / L.Rs - 1| := by rw [abs_of_pos (by linarith)]; norm_num; linarith
  simp only [TNFWLens.massEnclosed, tnfwMassEnclosed, tnfwF_eq hw, Function.comp_apply, id]

/-- Under either interpretation no mass is reported inside a vanishing circle. -/
theorem C63_tnfw_centre (L : TNFWLens) (hL : L.Ok) :
    Tendsto L.massEnclosed (𝓝[>] 0) (𝓝 0) := by
  have hd : Tendsto (fun r : ℝ => r / L.Rs) (𝓝[>] 0) (𝓝[>] 0) := by
    rw [tendsto_nhdsWithin_iff]
    refine ⟨?_, ?_⟩
    · have : Tendsto (fun r : ℝ => r / L.Rs) (𝓝 0) (𝓝 (0 / L.Rs)) := tendsto_id.div_const _
      rw [zero_div] at this
      exact tendsto_nhdsWithin_of_tendsto_nhds this
    · filter_upwards [self_mem_nhdsWithin] with r hr
      exact div_pos hr hL.Rs
  have hb := ((tendsto_tnfwBracket_zero hL.tau).comp hd).const_mul
    (L.M0 * (L.tau ^ 2 / (L.tau ^ 2 + 1) ^ 2))
  rw [mul_zero] at hb
  refine hb.congr' ?_
  have hlt : ∀ᶠ r : ℝ in 𝓝[>] 0, r < L.Rs / 2 :=
    nhdsWithin_le_nhds (Iio_mem_nhds (half_pos hL.Rs))
  filter_upwards [hlt] with r hr
  have hg : r / L.Rs < 1 / 2 := by rw [div_lt_iff₀ hL.Rs]; linarith
  have hw : 1e-2 < |r / L.Rs - 1| := by rw [abs_of_neg (by linarith)]; norm_num; linarith
  simp only [TNFWLens.massEnclosed, tnfwMassEnclosed, tnfwF_eq hw, Function.comp_apply]

theorem nfw_m_pos {c : ℝ} (hc : 0 < c) : 0 < log (1 + c) - c / (1 + c) := by
  have h1 : (0:ℝ) < 1 + c := by linarith
  have := log_lt_sub_one_of_pos (inv_pos.mpr h1) (by
    intro h; rw [inv_eq_one] at h; linarith)
  rw [log_inv] at this
  have e : (1 + c)⁻¹ - 1 = -(c / (1 + c)) := by field_simp; ring
  linarith

theorem rdelta_cube {m D r : ℝ} (hm : 0 < m) (hD : 0 < D) (hr : 0 < r) :
    ((3 * m / (4 * π * D * r)) ^ ((1 : ℝ) / 3)) ^ 3 = 3 * m / (4 * π * D * r) := by
  have hpi := pi_pos
  rw [← rpow_natCast, ← rpow_mul (by positivity)]
  norm_num

theorem integral_nfw_shell {rs a : ℝ} (rho : ℝ) (hrs : 0 < rs) (ha : 0 ≤ a) :
    ∫ r in (0:ℝ)..a, 4 * π * r ^ 2 * (rho / ((r / rs) * (1 + r / rs) ^ 2))
      = 4 * π * rs ^ 3 * rho * (log (1 + a / rs) - (a / rs) / (1 + a / rs)) := by
  have hcongr : ∫ r in (0:ℝ)..a, 4 * π * r ^ 2 * (rho / ((r / rs) * (1 + r / rs) ^ 2))
      = ∫ r in (0:ℝ)..a, 4 * π * rho * rs * (r / (1 + r / rs) ^ 2) := by
    refine intervalIntegral.integral_congr fun r hr => ?_
    rw [Set.uIcc_of_le ha] at hr
    have h1 : 0 < 1 + r / rs := by have := hr.1; positivity
    rcases eq_or_ne r 0 with rfl | hr0
    · simp
    · have h2 : rs + r ≠ 0 := by have := hr.1; positivity
      field_simp
  rw [hcongr]
  have hpos : ∀ r ∈ Set.uIcc 0 a, 0 < 1 + r / rs := by
    intro r hr
    rw [Set.uIcc_of_le ha] at hr
    have := hr.1; positivity
  rw [intervalIntegral.integral_eq_sub_of_hasDerivAt
    (f := fun r => 4 * π * rs ^ 3 * rho * (log (1 + r / rs) - (r / rs) / (1 + r / rs)))]
  · simp
  · intro r hr
    have h1 := hpos r hr
    have hd : HasDerivAt (fun r : ℝ => r / rs) (1 / rs) r := (hasDerivAt_id r).div_const rs
    have hd1 : HasDerivAt (fun r : ℝ => 1 + r / rs) (1 / rs) r := hd.const_add 1
    have := ((hd1.log h1.ne').sub (hd.div hd1 h1.ne')).const_mul (4 * π * rs ^ 3 * rho)
    refine this.congr_deriv ?_
    generalize hv : 1 + r / rs = v at *
    have hrv : r / rs = v - 1 := by linarith
    have hr : r = rs * (v - 1) := by rw [← hrv]; field_simp
    rw [hrv, hr]
    field_simp
    ring
  · refine ContinuousOn.intervalIntegrable (ContinuousOn.mul continuousOn_const
      (continuousOn_id.div ?_ fun r hr => (pow_pos (hpos r hr) 2).ne'))
    exact ((continuousOn_const.add (continuousOn_id.div_const rs)).pow 2)

/-- The `mass` of an NFW lens is the integral of its density profile, with the scale radius and scale
density the lens reports, over the ball of `c` scale radii, and the mean density of that ball is
`Delta` times the critical density. -/
theorem C63_nfw_mass (L : NFW) (hL : L.Ok) :
    ∫ r in (0:ℝ)..(L.c * L.rs), 4 * π * r ^ 2
        * (nfwScaleDensity L.rhoc L.c L.Delta / ((r / L.rs) * (1 + r / L.rs) ^ 2)) = L.mass
      ∧ L.mass / (4 / 3 * π * (L.c * L.rs) ^ 3) = L.Delta * L.rhoc := by
  have hrs := L.rs_pos hL
  have hc := hL.c
  have hm := nfw_m_pos hc
  have hpi := pi_pos
  have h1 := hL.mass; have h3 := hL.Delta; have h4 := hL.rhoc
  have hcube : (L.c * L.rs) ^ 3 = 3 * L.mass / (4 * π * L.Delta * L.rhoc) := by
    rw [← rdelta_cube h1 h3 h4, NFW.rs, nfwScaleRadius, mul_div_cancel₀ _ hc.ne']
  constructor
  · rw [integral_nfw_shell _ hrs (by positivity), mul_div_assoc L.c, div_self hrs.ne', mul_one]
    have : 4 * π * L.rs ^ 3 * nfwScaleDensity L.rhoc L.c L.Delta
        * (log (1 + L.c) - L.c / (1 + L.c)) = 4 / 3 * π * L.Delta * L.rhoc * (L.c * L.rs) ^ 3 := by
      rw [nfwScaleDensity]
      generalize log (1 + L.c) - L.c / (1 + L.c) = m at *
      field_simp
    rw [this, hcube]
    field_simp
  · rw [hcube]
    field_simp

/-- With `interpret_m_total_mass=False` the parameter `mass` is the mass the untruncated profile of
the same scale radius and density holds inside the ball of mean density 200 times critical. -/
theorem C63_tnfw_scale (L : TNFWLens) (hL : L.Ok) (hi : L.interpretTotal = false) :
    let rs := L.Rs * L.d_l * arcsecToRad
    L.M0 = 4 * π * rs ^ 3 * L.scaleDensity
      ∧ ∫ r in (0:ℝ)..(L.concentration * rs), 4 * π * r ^ 2
          * (L.scaleDensity / ((r / rs) * (1 + r / rs) ^ 2)) = L.mass
      ∧ L.mass / (4 / 3 * π * (L.concentration * rs) ^ 3) = 200 * L.rhoc := by
  intro rs
  have ha := arcsecToRad_pos
  have hrs : 0 < rs := by have := hL.Rs; have := hL.d_l; positivity
  have hpi := pi_pos
  have h1 := hL.mass; have h4 := hL.rhoc
  have hD : (0:ℝ) < tnfwDelta := by norm_num [tnfwDelta]
  have hc : 0 < L.concentration := by
    unfold TNFWLens.concentration tnfwConcentration
    have : 0 < 3 * L.mass / (4 * π * tnfwDelta * L.rhoc) := by positivity
    exact div_pos (rpow_pos_of_pos this _) hrs
  have hm := nfw_m_pos hc
  have hcube : (L.concentration * rs) ^ 3 = 3 * L.mass / (4 * π * tnfwDelta * L.rhoc) := by
    rw [← rdelta_cube h1 hD h4, TNFWLens.concentration, tnfwConcentration]
    congr 1
    exact div_mul_cancel₀ _ hrs.ne'
  refine ⟨?_, ?_, ?_⟩
  · rw [TNFWLens.M0, if_neg (by simp [hi])]
    rfl
  · rw [integral_nfw_shell _ hrs (by positivity), mul_div_assoc L.concentration, div_self hrs.ne',
      mul_one]
    have : 4 * π * rs ^ 3 * L.scaleDensity
        * (log (1 + L.concentration) - L.concentration / (1 + L.concentration))
        = 4 / 3 * π * tnfwDelta * L.rhoc * (L.concentration * rs) ^ 3 := by
      change 4 * π * rs ^ 3 * tnfwScaleDensity L.concentration L.rhoc tnfwDelta * _ = _
      rw [tnfwScaleDensity]
      generalize log (1 + L.concentration) - L.concentration / (1 + L.concentration) = m at *
      field_simp
    rw [this, hcube]
    field_simp
  · rw [hcube, tnfwDelta]
    field_simp

/-- A positive mass parameter gives a positive normalisation, under either interpretation and for
any truncation. -/
theorem C63_tnfw_pos (L : TNFWLens) (hL : L.Ok) : 0 < L.M0 := by
  have ht := hL.tau; have hm := hL.mass; have hn := tnfw_norm_pos ht
  cases hi : L.interpretTotal
  · rw [(C63_tnfw_scale L hL hi).1]
    have ha := arcsecToRad_pos
    have := hL.Rs; have := hL.d_l; have := hL.rhoc; have hpi := pi_pos
    have hD : (0:ℝ) < tnfwDelta := by norm_num [tnfwDelta]
    have hc : 0 < L.concentration := by
      unfold TNFWLens.concentration tnfwConcentration
      have : 0 < 3 * L.mass / (4 * π * tnfwDelta * L.rhoc) := by positivity
      exact div_pos (rpow_pos_of_pos this _) (by positivity)
    have hm := nfw_m_pos hc
    have : 0 < L.scaleDensity := by
      change 0 < tnfwScaleDensity L.concentration L.rhoc tnfwDelta
      unfold tnfwScaleDensity
      positivity
    positivity
  · rw [TNFWLens.M0, if_pos hi, tnfwM0Tot]
    positivity

/-- The mass a pseudo-Jaffe lens reports inside a circle is zero at the centre, does not decrease,
and tends to the parameter `mass`. -/
theorem C63_pseudo_jaffe_total (mass Rc Rs : ℝ) (hm : 0 ≤ mass) (hRc : 0 < Rc) (hRs : 0 < Rs)
    (hne : Rc ≠ Rs) :
    pjMassEnclosed 0 mass Rc Rs 0 = 0
      ∧ (∀ r r', 0 ≤ r → r ≤ r' → pjMassEnclosed r mass Rc Rs 0 ≤ pjMassEnclosed r' mass Rc Rs 0)
      ∧ Tendsto (fun r => pjMassEnclosed r mass Rc Rs 0) atTop (𝓝 mass) := by
  have hne' : Rs - Rc ≠ 0 := sub_ne_zero.mpr hne.symm
  have hfrac : ∀ r, 0 ≤ r → pjMassEnclosed r mass Rc Rs 0
      = mass * (1 - (Rs + Rc) / (√(Rc ^ 2 + r ^ 2) + √(Rs ^ 2 + r ^ 2))) := by
    intro r hr
    have p1 : 0 < √(Rc ^ 2 + r ^ 2) := sqrt_pos.mpr (by positivity)
    have p2 : 0 < √(Rs ^ 2 + r ^ 2) := sqrt_pos.mpr (by positivity)
    have q1 : √(Rc ^ 2 + r ^ 2) ^ 2 = Rc ^ 2 + r ^ 2 := sq_sqrt (by positivity)
    have q2 : √(Rs ^ 2 + r ^ 2) ^ 2 = Rs ^ 2 + r ^ 2 := sq_sqrt (by positivity)
    simp only [pjMassEnclosed, add_zero]
    generalize √(Rc ^ 2 + r ^ 2) = a at *
    generalize √(Rs ^ 2 + r ^ 2) = b at *
    have hb : a - b = -(Rs - Rc) * ((Rs + Rc) / (a + b)) := by
      field_simp
      linear_combination q1 - q2
    rw [show a - Rc - b + Rs = (a - b) + (Rs - Rc) by ring, hb]
    field_simp
    ring
  refine ⟨?_, ?_, ?_⟩
  · rw [hfrac 0 le_rfl]
    simp only [ne_eq, OfNat.ofNat_ne_zero, not_false_eq_true, zero_pow, add_zero, sqrt_sq hRc.le,
      sqrt_sq hRs.le, add_comm Rs Rc, div_self (by positivity : Rc + Rs ≠ 0), sub_self, mul_zero]
  · intro r r' hr hrr
    rw [hfrac r hr, hfrac r' (hr.trans hrr)]
    refine mul_le_mul_of_nonneg_left (sub_le_sub_left ?_ 1) hm
    have p1 : 0 < √(Rc ^ 2 + r ^ 2) := sqrt_pos.mpr (by positivity)
    have p2 : 0 < √(Rs ^ 2 + r ^ 2) := sqrt_pos.mpr (by positivity)
    have hsq : r ^ 2 ≤ r' ^ 2 := pow_le_pow_left₀ hr hrr 2
    exact div_le_div_of_nonneg_left (by positivity) (by positivity)
      (add_le_add (sqrt_le_sqrt (by linarith)) (sqrt_le_sqrt (by linarith)))
  · have hb : Tendsto (fun r : ℝ => (Rs + Rc) * r⁻¹) atTop (𝓝 ((Rs + Rc) * 0)) :=
      tendsto_inv_atTop_zero.const_mul _
    rw [mul_zero] at hb
    have hz : Tendsto (fun r : ℝ => (Rs + Rc) / (√(Rc ^ 2 + r ^ 2) + √(Rs ^ 2 + r ^ 2))) atTop
        (𝓝 0) := by
      refine tendsto_of_tendsto_of_tendsto_of_le_of_le' tendsto_const_nhds hb ?_ ?_
      · exact Eventually.of_forall fun r => by positivity
      · filter_upwards [eventually_gt_atTop 0] with r hr
        rw [← div_eq_mul_inv]
        refine div_le_div_of_nonneg_left (by positivity) hr ?_
        have : r ≤ √(Rc ^ 2 + r ^ 2) := le_sqrt_of_sq_le (by nlinarith)
        linarith [sqrt_nonneg (Rs ^ 2 + r ^ 2)]
    have := (hz.const_sub 1).const_mul mass
    rw [sub_zero, mul_one] at this
    refine this.congr' ?_
    filter_upwards [eventually_ge_atTop 0] with r hr
    rw [hfrac r hr]

/-! ### C64: no truncation -/

/-- The NFW lens with the same centre, mass and cosmology, of the concentration the truncated lens
reports. -/
noncomputable def TNFWLens.untruncated (L : TNFWLens) : NFW where
  Gc2 := L.Gc2
  x0 := L.x0
  y0 := L.y0
  mass := L.mass
  c := L.concentration
  Delta := 200
  rhoc := L.rhoc
  d_l := L.d_l
  d_s := L.d_s
  d_ls := L.d_ls
  sigmacr := L.sigmacr
  s := L.s

theorem TNFWLens.concentration_pos {L : TNFWLens} (hL : L.Ok) : 0 < L.concentration := by
  have ha := arcsecToRad_pos
  have := hL.Rs; have := hL.d_l; have := hL.rhoc; have hpi := pi_pos; have := hL.mass
  have hD : (0:ℝ) < tnfwDelta := by norm_num [tnfwDelta]
  unfold TNFWLens.concentration tnfwConcentration
  have : 0 < 3 * L.mass / (4 * π * tnfwDelta * L.rhoc) := by positivity
  exact div_pos (rpow_pos_of_pos this _) (by positivity)

/-- Its scale radius is the `Rs` of the truncated lens, as a length. -/
theorem TNFWLens.untruncated_rs {L : TNFWLens} (hL : L.Ok) :
    L.untruncated.rs = L.Rs * L.d_l * arcsecToRad := by
  have ha := arcsecToRad_pos
  have h1 := hL.Rs; have h2 := hL.d_l; have := hL.rhoc; have hpi := pi_pos; have := hL.mass
  have : 0 < (3 * L.mass / (4 * π * 200 * L.rhoc)) ^ ((1 : ℝ) / 3) :=
    rpow_pos_of_pos (by positivity) _
  simp only [NFW.rs, nfwScaleRadius, untruncated, concentration, tnfwConcentration, tnfwDelta]
  field_simp

theorem TNFWLens.untruncated_ok {L : TNFWLens} (hL : L.Ok) : L.untruncated.Ok :=
  ⟨hL.G, hL.mass, TNFWLens.concentration_pos hL, by norm_num [TNFWLens.untruncated], hL.rhoc, hL.d_l, hL.d_s, hL.d_ls,
    hL.sigmacr⟩

/-- The same lens with another truncation. -/
def TNFWLens.withTau (L : TNFWLens) (t : ℝ) : TNFWLens := { L with tau := t }

theorem TNFWLens.M0_withTau {L : TNFWLens} (hi : L.interpretTotal = false) (t : ℝ) :
    (L.withTau t).M0 = 4 * π * (L.Rs * L.d_l * arcsecToRad) ^ 3
      * nfwScaleDensity L.rhoc L.concentration 200 := by
  rw [TNFWLens.M0, if_neg (by simp [withTau, hi])]
  rfl

theorem TNFWLens.radius_eq {L : TNFWLens} (hL : L.Ok) (th : ℝ) :
    L.d_l * th * arcsecToRad / L.untruncated.rs = th / L.Rs := by
  have ha := arcsecToRad_pos
  have h1 := hL.Rs; have h2 := hL.d_l
  rw [untruncated_rs hL]
  field_simp

/-- As the truncation radius grows, the deflection of a truncated NFW lens whose mass is the scale
mass tends to that of the NFW lens of the same mass and concentration. -/
theorem C64_deflection (L : TNFWLens) (hL : L.Ok) (hi : L.interpretTotal = false) (hs : L.s = 0)
    (x y : ℝ) (hxy : (x, y) ≠ (L.x0, L.y0))
    (hw : 1e-2 < |√((x - L.x0) ^ 2 + (y - L.y0) ^ 2) / L.Rs - 1|) :
    Tendsto (fun t => (L.withTau t).toTNFW.deflection x y) atTop
      (𝓝 (L.untruncated.deflection x y)) := by
  have ha := arcsecToRad_pos
  have h1 := hL.Rs; have h2 := hL.d_l; have h3 := hL.d_s
  have hR := radius_pos (sub_ne_zero_or hxy)
  have hm := tendsto_tnfwMass (4 * π * (L.Rs * L.d_l * arcsecToRad) ^ 3
      * nfwScaleDensity L.rhoc L.concentration 200) hR h1 hw
  have hdef : ∀ t, (L.withTau t).toTNFW.deflection x y =
      (L.d_ls / L.d_s * (4 * L.Gc2 * radToArcsec) / (L.d_l * arcsecToRad)
          * (tnfwMassEnclosed (√((x - L.x0) ^ 2 + (y - L.y0) ^ 2)) L.Rs t
            (4 * π * (L.Rs * L.d_l * arcsecToRad) ^ 3
              * nfwScaleDensity L.rhoc L.concentration 200)
            / √((x - L.x0) ^ 2 + (y - L.y0) ^ 2)) * (x - L.x0) / √((x - L.x0) ^ 2 + (y - L.y0) ^ 2),
       L.d_ls / L.d_s * (4 * L.Gc2 * radToArcsec) / (L.d_l * arcsecToRad)
          * (tnfwMassEnclosed (√((x - L.x0) ^ 2 + (y - L.y0) ^ 2)) L.Rs t
            (4 * π * (L.Rs * L.d_l * arcsecToRad) ^ 3
              * nfwScaleDensity L.rhoc L.concentration 200)
            / √((x - L.x0) ^ 2 + (y - L.y0) ^ 2)) * (y - L.y0)
              / √((x - L.x0) ^ 2 + (y - L.y0) ^ 2)) := by
    intro t
    rw [TNFW.deflection_eq (L.withTau t).toTNFW hs hxy, ← TNFWLens.M0_withTau hi t,
      tnfwMass_scale _ L.Rs]
    rfl
  simp only [hdef]
  have hnfw : L.untruncated.deflection x y =
      (L.d_ls / L.d_s * (4 * L.Gc2 * radToArcsec) / (L.d_l * arcsecToRad)
          * ((4 * π * (L.Rs * L.d_l * arcsecToRad) ^ 3
              * nfwScaleDensity L.rhoc L.concentration 200
              * nfwH (√((x - L.x0) ^ 2 + (y - L.y0) ^ 2) / L.Rs))
            / √((x - L.x0) ^ 2 + (y - L.y0) ^ 2)) * (x - L.x0) / √((x - L.x0) ^ 2 + (y - L.y0) ^ 2),
       L.d_ls / L.d_s * (4 * L.Gc2 * radToArcsec) / (L.d_l * arcsecToRad)
          * ((4 * π * (L.Rs * L.d_l * arcsecToRad) ^ 3
              * nfwScaleDensity L.rhoc L.concentration 200
              * nfwH (√((x - L.x0) ^ 2 + (y - L.y0) ^ 2) / L.Rs))
            / √((x - L.x0) ^ 2 + (y - L.y0) ^ 2)) * (y - L.y0)
              / √((x - L.x0) ^ 2 + (y - L.y0) ^ 2)) := by
    have hr := TNFWLens.radius_eq hL (√((x - L.x0) ^ 2 + (y - L.y0) ^ 2))
    have hrs := TNFWLens.untruncated_rs hL
    simp only [NFW.deflection, NFW.physicalDeflection, translateRotate]
    change (L.d_ls / L.d_s * ((16 * π * L.Gc2 * nfwScaleDensity L.rhoc L.concentration 200
      * L.untruncated.rs ^ 3 * nfwH (L.d_l * (√((x - L.x0) ^ 2 + (y - L.y0) ^ 2) + L.s)
        * arcsecToRad / L.untruncated.rs) * radToArcsec
        / (L.d_l * (√((x - L.x0) ^ 2 + (y - L.y0) ^ 2) + L.s) * arcsecToRad)) * (x - L.x0)
        / (√((x - L.x0) ^ 2 + (y - L.y0) ^ 2) + L.s)),
      L.d_ls / L.d_s * ((16 * π * L.Gc2 * nfwScaleDensity L.rhoc L.concentration 200
      * L.untruncated.rs ^ 3 * nfwH (L.d_l * (√((x - L.x0) ^ 2 + (y - L.y0) ^ 2) + L.s)
        * arcsecToRad / L.untruncated.rs) * radToArcsec
        / (L.d_l * (√((x - L.x0) ^ 2 + (y - L.y0) ^ 2) + L.s) * arcsecToRad)) * (y - L.y0)
        / (√((x - L.x0) ^ 2 + (y - L.y0) ^ 2) + L.s))) = _
    rw [hs, add_zero, hr, hrs]
    generalize √((x - L.x0) ^ 2 + (y - L.y0) ^ 2) = R at *
    generalize nfwH (R / L.Rs) = H
    generalize nfwScaleDensity _ _ _ = D
    ext <;> · simp only; field_simp; ring
  rw [hnfw]
  exact ((((hm.div_const _).const_mul _).mul_const _).div_const _).prodMk_nhds
    ((((hm.div_const _).const_mul _).mul_const _).div_const _)

/-- Likewise the convergence, away from the ring at the scale radius. -/
theorem C64_convergence (L : TNFWLens) (hL : L.Ok) (hi : L.interpretTotal = false) (hs : L.s = 0)
    (x y : ℝ) (hxy : (x, y) ≠ (L.x0, L.y0))
    (hw : 1e-2 < |√((x - L.x0) ^ 2 + (y - L.y0) ^ 2) / L.Rs - 1|) :
    ∃ k, L.untruncated.convergence x y = some k
      ∧ Tendsto (fun t => (L.withTau t).toTNFW.convergence x y) atTop (𝓝 k) := by
  have ha := arcsecToRad_pos
  have h1 := hL.Rs; have h2 := hL.d_l; have h3 := hL.d_s
  have hR := radius_pos (sub_ne_zero_or hxy)
  have hr := TNFWLens.radius_eq hL (√((x - L.x0) ^ 2 + (y - L.y0) ^ 2))
  have hrs := TNFWLens.untruncated_rs hL
  have hg : 0 < √((x - L.x0) ^ 2 + (y - L.y0) ^ 2) / L.Rs := by positivity
  have hw6 : 1e-6 < |√((x - L.x0) ^ 2 + (y - L.y0) ^ 2) / L.Rs - 1| := by
    norm_num at hw ⊢; linarith
  have hg1 : √((x - L.x0) ^ 2 + (y - L.y0) ^ 2) / L.Rs ≠ 1 := ne_one_of_window (by norm_num) hw
  have hden : (√((x - L.x0) ^ 2 + (y - L.y0) ^ 2) / L.Rs) ^ 2 - 1 ≠ 0 := by
    intro h
    have : (√((x - L.x0) ^ 2 + (y - L.y0) ^ 2) / L.Rs - 1)
      * (√((x - L.x0) ^ 2 + (y - L.y0) ^ 2) / L.Rs + 1) = 0 := by linear_combination h
    rcases mul_eq_zero.mp this with h | h
    · exact hg1 (by linarith)
    · linarith
  refine ⟨2 * nfwConvergenceS L.sigmacr L.rhoc L.mass L.concentration 200
    * (1 - ringF (√((x - L.x0) ^ 2 + (y - L.y0) ^ 2) / L.Rs))
    / ((√((x - L.x0) ^ 2 + (y - L.y0) ^ 2) / L.Rs) ^ 2 - 1), ?_, ?_⟩
  · simp only [NFW.convergence, translateRotate]
    change divOpt (2 * nfwConvergenceS L.sigmacr L.rhoc L.mass L.concentration 200
      * nfwF (L.d_l * (√((x - L.x0) ^ 2 + (y - L.y0) ^ 2) + L.s) * arcsecToRad / L.untruncated.rs))
      ((L.d_l * (√((x - L.x0) ^ 2 + (y - L.y0) ^ 2) + L.s) * arcsecToRad / L.untruncated.rs) ^ 2 - 1)
      = _
    rw [hs, add_zero, hr, nfwF_eq hg hw6, divOpt, if_neg hden]
  · have hk := (tendsto_tnfwKappa (ringF (√((x - L.x0) ^ 2 + (y - L.y0) ^ 2) / L.Rs)) hg).mul_const
      (4 * π * (L.Rs * L.d_l * arcsecToRad) ^ 3 * nfwScaleDensity L.rhoc L.concentration 200
        / (2 * π * (L.Rs * L.d_l * arcsecToRad) ^ 2) / L.sigmacr)
    have he : (1 - ringF (√((x - L.x0) ^ 2 + (y - L.y0) ^ 2) / L.Rs))
        / ((√((x - L.x0) ^ 2 + (y - L.y0) ^ 2) / L.Rs) ^ 2 - 1)
        * (4 * π * (L.Rs * L.d_l * arcsecToRad) ^ 3 * nfwScaleDensity L.rhoc L.concentration 200
        / (2 * π * (L.Rs * L.d_l * arcsecToRad) ^ 2) / L.sigmacr)
        = 2 * nfwConvergenceS L.sigmacr L.rhoc L.mass L.concentration 200
        * (1 - ringF (√((x - L.x0) ^ 2 + (y - L.y0) ^ 2) / L.Rs))
        / ((√((x - L.x0) ^ 2 + (y - L.y0) ^ 2) / L.Rs) ^ 2 - 1) := by
      have hS : nfwConvergenceS L.sigmacr L.rhoc L.mass L.concentration 200
          = L.Rs * L.d_l * arcsecToRad * nfwScaleDensity L.rhoc L.concentration 200 / L.sigmacr := by
        rw [← hrs]; rfl
      rw [hS]
      generalize √((x - L.x0) ^ 2 + (y - L.y0) ^ 2) / L.Rs = g at *
      generalize g ^ 2 - 1 = d at *
      generalize 1 - ringF g = F
      generalize nfwScaleDensity _ _ _ = D
      have hpi := pi_pos
      field_simp
      ring
    rw [he] at hk
    refine hk.congr fun t => ?_
    simp only [TNFW.convergence, translateRotate, TNFWLens.toTNFW, TNFWLens.M0_withTau hi]
    simp only [TNFWLens.withTau, hs, add_zero, tnfwF_eq hw, if_neg hg1]
    ring

/-- Likewise the potential, including its additive constant. -/
theorem C64_potential (L : TNFWLens) (hL : L.Ok) (hi : L.interpretTotal = false) (hs : L.s = 0)
    (x y : ℝ) (hxy : (x, y) ≠ (L.x0, L.y0))
    (hw : 1e-2 < |√((x - L.x0) ^ 2 + (y - L.y0) ^ 2) / L.Rs - 1|) :
    Tendsto (fun t => (L.withTau t).toTNFW.potential x y) atTop
      (𝓝 (L.untruncated.potential x y)) := by
  have ha := arcsecToRad_pos
  have hpi := pi_pos
  have h1 := hL.Rs; have h2 := hL.d_l; have h3 := hL.d_s; have h4 := hL.d_ls; have h5 := hL.G
  have hR := radius_pos (sub_ne_zero_or hxy)
  have hr := TNFWLens.radius_eq hL (√((x - L.x0) ^ 2 + (y - L.y0) ^ 2))
  have hrs := TNFWLens.untruncated_rs hL
  have hg : 0 < √((x - L.x0) ^ 2 + (y - L.y0) ^ 2) / L.Rs := by positivity
  have hw6 : 1e-6 < |√((x - L.x0) ^ 2 + (y - L.y0) ^ 2) / L.Rs - 1| := by
    norm_num at hw ⊢; linarith
  have hw3 : 1e-3 < |√((x - L.x0) ^ 2 + (y - L.y0) ^ 2) / L.Rs - 1| := by
    norm_num at hw ⊢; linarith
  have hp := (tendsto_tnfwPot (ringF (√((x - L.x0) ^ 2 + (y - L.y0) ^ 2) / L.Rs))
      (ringP (√((x - L.x0) ^ 2 + (y - L.y0) ^ 2) / L.Rs)) hg).const_mul
      (2 * (4 * π * (L.Rs * L.d_l * arcsecToRad) ^ 3 * nfwScaleDensity L.rhoc L.concentration 200)
        * L.Gc2 * (L.d_ls / L.d_s) / (L.d_l * arcsecToRad ^ 2))
  have he : L.untruncated.potential x y
      = 2 * (4 * π * (L.Rs * L.d_l * arcsecToRad) ^ 3 * nfwScaleDensity L.rhoc L.concentration 200)
        * L.Gc2 * (L.d_ls / L.d_s) / (L.d_l * arcsecToRad ^ 2)
        * (log (√((x - L.x0) ^ 2 + (y - L.y0) ^ 2) / L.Rs / 2) ^ 2
          + ringP (√((x - L.x0) ^ 2 + (y - L.y0) ^ 2) / L.Rs)) := by
    have hS : nfwConvergenceS L.sigmacr L.rhoc L.mass L.concentration 200
        = L.Rs * L.d_l * arcsecToRad * nfwScaleDensity L.rhoc L.concentration 200 / L.sigmacr := by
      rw [← hrs]; rfl
    simp only [NFW.potential, translateRotate]
    change 2 * nfwConvergenceS L.sigmacr L.rhoc L.mass L.concentration 200
      * nfwG (L.d_l * (√((x - L.x0) ^ 2 + (y - L.y0) ^ 2) + L.s) * arcsecToRad / L.untruncated.rs)
      * L.untruncated.rs ^ 2 / (L.d_l ^ 2 * arcsecToRad ^ 2) = _
    rw [hs, add_zero, hr, hrs, nfwG_eq hw6, hS, hL.sigmacr]
    generalize √((x - L.x0) ^ 2 + (y - L.y0) ^ 2) / L.Rs = g at *
    generalize log (g / 2) ^ 2 + ringP g = F
    generalize nfwScaleDensity _ _ _ = D
    field_simp
  rw [he]
  refine hp.congr fun t => ?_
  simp only [TNFW.potential, translateRotate, TNFWLens.toTNFW, TNFWLens.M0_withTau hi]
  simp only [TNFWLens.withTau, hs, add_zero, tnfwF_eq hw, tnfwP_eq hw3]
  ring

/-! A lens the theorems apply to, under both interpretations of its mass. -/

/-- Unit distances, `tau = 3`, total or scale mass 5. -/
noncomputable def tnfwEx (total : Bool) : TNFWLens where
  interpretTotal := total
  Gc2 := 1
  x0 := 0
  y0 := 0
  mass := 5
  Rs := 1
  tau := 3
  s := 0
  rhoc := 1
  d_l := 1
  d_s := 1
  d_ls := 1
  sigmacr := 1 / (4 * π)

theorem tnfwEx_ok (total : Bool) : (tnfwEx total).Ok :=
  ⟨by norm_num [tnfwEx], by norm_num [tnfwEx], by norm_num [tnfwEx], by norm_num [tnfwEx],
    by norm_num [tnfwEx], by norm_num [tnfwEx], by norm_num [tnfwEx], by norm_num [tnfwEx],
    by norm_num [tnfwEx]⟩

example : Tendsto (tnfwEx true).massEnclosed atTop (𝓝 5) := C63_tnfw_total _ (tnfwEx_ok true) rfl

example : Tendsto (fun t => ((tnfwEx false).withTau t).toTNFW.deflection 3 4) atTop
    (𝓝 ((tnfwEx false).untruncated.deflection 3 4)) := by
  refine C64_deflection _ (tnfwEx_ok false) rfl rfl 3 4 (by simp [tnfwEx]) ?_
  have : √(((3:ℝ) - 0) ^ 2 + (4 - 0) ^ 2) = 5 := by
    rw [show ((3:ℝ) - 0) ^ 2 + (4 - 0) ^ 2 = 5 ^ 2 by norm_num]
    exact sqrt_sq (by norm_num)
  simp only [tnfwEx, this]
  norm_num

/-- For a pseudo-Jaffe lens of core 3 and scale 8 the mass inside radius 4 is `(√(9 + 16) - 3 - √(64 + 16) + 8) / 5` of the total. -/
example : pjMassEnclosed 4 1 3 8 0 = (10 - √80) / 5 := by
  have h : √((3:ℝ) ^ 2 + 4 ^ 2) = 5 := by
    rw [show (3:ℝ) ^ 2 + 4 ^ 2 = 5 ^ 2 by norm_num]; exact sqrt_sq (by norm_num)
  simp only [pjMassEnclosed, add_zero, h]
  norm_num
  ring

end Caustics

import Verif.Model.RangeNan
import Verif.Lemmas.Flt
import Verif.Props.FarField
import Verif.Props.TNFWMass
import Mathlib.Analysis.SpecialFunctions.Arsinh

/-! C137: a truncated NFW lens whose truncation radius, or scale radius, shrinks to zero. -/

open Real Filter Topology

namespace Caustics

open Flt (fin IsFin)

/-! ### The limit of small truncation radius -/

theorem tendsto_arsinh_quot (g : ℝ) : Tendsto (fun tau : ℝ => arsinh (tau / g) / tau) (𝓝[>] 0) (𝓝 (1 / g)) := by
  have h1 : HasDerivAt (fun tau : ℝ => arsinh (tau / g)) (1 / g) 0 := by
    have := (hasDerivAt_arsinh (0 / g)).comp 0 ((hasDerivAt_id (0 : ℝ)).div_const g)
    refine this.congr_deriv ?_
    simp
  have h2 := (hasDerivAt_iff_tendsto_slope.1 h1).mono_left (nhdsWithin_mono 0 (fun a (h : 0 < a) => h.ne'))
  refine h2.congr fun tau => ?_
  simp [slope_def_field]

/-- What the bracket of the enclosed mass has beyond its limit. -/
noncomputable def tnfwRest (g tau : ℝ) : ℝ :=
  (tau ^ 2 + 1 + 2 * (g ^ 2 - 1)) * tnfwF g + (tau ^ 2 + 1) +
    √(tau ^ 2 + g ^ 2) * (-π + (tau ^ 2 - 1) * tnfwL g tau / tau)

noncomputable def tnfwTotal (tau : ℝ) : ℝ := (tau ^ 2 - 1) * log tau + π * tau - (tau ^ 2 + 1)

theorem tnfwMassEnclosed_rest (r Rs tau M0 : ℝ) :
    tnfwMassEnclosed r Rs tau M0 = M0 * (tau ^ 2 / (tau ^ 2 + 1) ^ 2) * (tnfwTotal tau + tnfwRest (r / Rs) tau) := by
  simp only [tnfwMassEnclosed, tnfwTotal, tnfwRest]
  ring

theorem tendsto_tnfwRest {g : ℝ} (hg : 0 < g) :
    Tendsto (tnfwRest g) (𝓝[>] 0) (𝓝 ((1 + 2 * (g ^ 2 - 1)) * tnfwF g + 1 + g * (-π + 1 / g))) := by
  have t0 : Tendsto (fun t : ℝ => t) (𝓝[>] 0) (𝓝 0) := tendsto_id.mono_left nhdsWithin_le_nhds
  have t2 : Tendsto (fun t : ℝ => t ^ 2) (𝓝[>] 0) (𝓝 0) := by simpa using t0.pow 2
  have hs : Tendsto (fun t : ℝ => √(t ^ 2 + g ^ 2)) (𝓝[>] 0) (𝓝 g) := by
    have := (t2.add_const (g ^ 2)).sqrt
    rwa [zero_add, sqrt_sq hg.le] at this
  have h1 := (((t2.add_const 1).add_const (2 * (g ^ 2 - 1))).mul_const (tnfwF g)).add (t2.add_const 1)
  have h2 := hs.mul (((t2.sub_const 1).neg.mul (tendsto_arsinh_quot g)).const_add (-π))
  have h3 := h1.add h2
  refine (h3.congr' ?_).trans (by simp)
  filter_upwards [self_mem_nhdsWithin] with t ht
  rw [tnfwRest, tnfwL_arsinh hg ht]
  ring_nf

theorem tendsto_tnfwTotal : Tendsto tnfwTotal (𝓝[>] 0) atTop ∧
    Tendsto (fun t => t ^ 2 * tnfwTotal t) (𝓝[>] 0) (𝓝 0) := by
  have t0 : Tendsto (fun t : ℝ => t) (𝓝[>] 0) (𝓝 0) := tendsto_id.mono_left nhdsWithin_le_nhds
  have t2 : Tendsto (fun t : ℝ => t ^ 2) (𝓝[>] 0) (𝓝 0) := by simpa using t0.pow 2
  have hl : Tendsto log (𝓝[>] 0) atBot := tendsto_log_nhdsGT_zero
  have hrest : Tendsto (fun t : ℝ => π * t - (t ^ 2 + 1)) (𝓝[>] 0) (𝓝 (-1)) := by
    simpa using (t0.const_mul π).sub (t2.add_const 1)
  constructor
  · have h1 : Tendsto (fun t : ℝ => (t ^ 2 - 1) * log t) (𝓝[>] 0) atTop := by
      have : Tendsto (fun t : ℝ => t ^ 2 - 1) (𝓝[>] 0) (𝓝 (-1)) := by simpa using t2.sub_const 1
      exact this.neg_mul_atBot (by norm_num) hl
    refine (h1.atTop_add hrest).congr fun t => ?_
    rw [tnfwTotal]; ring
  · have h1 : Tendsto (fun t : ℝ => log t * t) (𝓝[>] 0) (𝓝 0) := by
      have := tendsto_log_mul_rpow_nhdsGT_zero one_pos
      simpa using this
    have h2 := (((t2.sub_const 1).mul h1).mul t0).add (t2.mul hrest)
    have e : ((0 - 1) * 0 * 0 + 0 * -1 : ℝ) = 0 := by norm_num
    rw [e] at h2
    refine h2.congr fun t => ?_
    rw [tnfwTotal]; ring

/-- The mass inside a circle, when the mass parameter is the total mass. -/
theorem tendsto_tnfw_mass_tau {mass r Rs : ℝ} (hr : 0 < r) (hRs : 0 < Rs) :
    Tendsto (fun tau => tnfwMassEnclosed r Rs tau (tnfwM0Tot mass tau)) (𝓝[>] 0) (𝓝 mass) := by
  obtain ⟨hN, -⟩ := tendsto_tnfwTotal
  have hD := tendsto_tnfwRest (g := r / Rs) (div_pos hr hRs)
  have h1 := ((hD.div_atTop hN).const_add 1).const_mul mass
  rw [add_zero, mul_one] at h1
  refine h1.congr' ?_
  filter_upwards [self_mem_nhdsWithin] with t ht
  have ht : 0 < t := ht
  rw [tnfwMassEnclosed_rest, tnfwM0Tot]
  have hn : 0 < tnfwTotal t := tnfw_norm_pos ht
  change _ = mass * (t ^ 2 + 1) ^ 2 / (t ^ 2 * tnfwTotal t) * _ * _
  generalize tnfwTotal t = N at hn ⊢
  field_simp

/-- With a mass that is not the total mass: everything is cut away. -/
theorem tendsto_tnfw_mass_tau_scale {M0 r Rs : ℝ} (hr : 0 < r) (hRs : 0 < Rs) :
    Tendsto (fun tau => tnfwMassEnclosed r Rs tau M0) (𝓝[>] 0) (𝓝 0) := by
  obtain ⟨-, hN⟩ := tendsto_tnfwTotal
  have hD := tendsto_tnfwRest (g := r / Rs) (div_pos hr hRs)
  have t0 : Tendsto (fun t : ℝ => t) (𝓝[>] 0) (𝓝 0) := tendsto_id.mono_left nhdsWithin_le_nhds
  have t2 : Tendsto (fun t : ℝ => t ^ 2) (𝓝[>] 0) (𝓝 0) := by simpa using t0.pow 2
  have h1 := ((hN.add (t2.mul hD)).div ((t2.add_const 1).pow 2) (by norm_num)).const_mul M0
  rw [zero_mul, add_zero, zero_div, mul_zero] at h1
  refine h1.congr fun t => ?_
  rw [tnfwMassEnclosed_rest]
  simp only [Pi.div_apply]
  ring

/-! ### The limit of small scale radius -/

theorem tendsto_tnfw_mass_Rs {mass r tau : ℝ} (hr : 0 < r) (ht : 0 < tau) :
    Tendsto (fun Rs => tnfwMassEnclosed r Rs tau (tnfwM0Tot mass tau)) (𝓝[>] 0) (𝓝 mass) := by
  have hg : Tendsto (fun Rs : ℝ => r / Rs) (𝓝[>] 0) atTop := by
    simp only [div_eq_mul_inv]
    exact tendsto_inv_nhdsGT_zero.const_mul_atTop hr
  have hb := ((tendsto_tnfwBracket ht).comp hg).const_mul (tnfwM0Tot mass tau * (tau ^ 2 / (tau ^ 2 + 1) ^ 2))
  have hn := tnfw_norm_pos ht
  have he : tnfwM0Tot mass tau * (tau ^ 2 / (tau ^ 2 + 1) ^ 2) * ((tau ^ 2 - 1) * log tau + π * tau - (tau ^ 2 + 1)) = mass := by
    rw [tnfwM0Tot]
    generalize (tau ^ 2 - 1) * log tau + π * tau - (tau ^ 2 + 1) = n at *
    field_simp
  rw [he] at hb
  refine hb.congr' ?_
  filter_upwards [hg.eventually_gt_atTop 2] with Rs hR
  have hw : 1e-2 < |r / Rs - 1| := by rw [abs_of_pos (by linarith)]; norm_num; linarith
  simp only [tnfwMassEnclosed, tnfwF_eq hw, Function.comp_apply]

/-- The normalisation, when the mass parameter is the mass inside the radius of 200 times the critical density. -/
theorem tnfwM0_scale (L : TNFWLens) (hL : L.Ok) (hi : L.interpretTotal = false) :
    0 < L.concentration ∧ L.M0 = L.mass / (log (1 + L.concentration) - L.concentration / (1 + L.concentration)) := by
  have ha := arcsecToRad_pos
  have hpi := pi_pos
  have h1 := hL.mass; have h4 := hL.rhoc; have h5 := hL.Rs; have h6 := hL.d_l
  have hD : (0:ℝ) < tnfwDelta := by norm_num [tnfwDelta]
  have hc : 0 < L.concentration := by
    unfold TNFWLens.concentration tnfwConcentration
    have : 0 < 3 * L.mass / (4 * π * tnfwDelta * L.rhoc) := by positivity
    exact div_pos (rpow_pos_of_pos this _) (by positivity)
  refine ⟨hc, ?_⟩
  obtain ⟨e1, -, -⟩ := C63_tnfw_scale L hL hi
  rw [e1]
  change 4 * π * (L.Rs * L.d_l * arcsecToRad) ^ 3 * tnfwScaleDensity L.concentration L.rhoc tnfwDelta = _
  have hcube : (L.concentration * (L.Rs * L.d_l * arcsecToRad)) ^ 3 = 3 * L.mass / (4 * π * tnfwDelta * L.rhoc) := by
    rw [TNFWLens.concentration, tnfwConcentration, div_mul_cancel₀ _ (by positivity), ← rpow_natCast, ← rpow_mul (by positivity)]
    norm_num
  rw [tnfwScaleDensity]
  have hm := nfw_m_pos hc
  generalize log (1 + L.concentration) - L.concentration / (1 + L.concentration) = m at *
  rw [mul_pow] at hcube
  have : 4 * π * (L.Rs * L.d_l * arcsecToRad) ^ 3 * (tnfwDelta / 3 * L.rhoc * L.concentration ^ 3 / m)
      = 4 * π * tnfwDelta * L.rhoc / 3 * (L.concentration ^ 3 * (L.Rs * L.d_l * arcsecToRad) ^ 3) / m := by ring
  rw [this, hcube]
  field_simp

theorem tendsto_tnfw_mass_Rs_scale (L : TNFWLens) (hL : L.Ok) (hi : L.interpretTotal = false) {r : ℝ} (hr : 0 < r) :
    Tendsto (fun Rs => { L with Rs := Rs }.massEnclosed r) (𝓝[>] 0) (𝓝 0) := by
  have ha := arcsecToRad_pos
  have hpi := pi_pos
  have h1 := hL.mass; have h4 := hL.rhoc; have h6 := hL.d_l; have ht := hL.tau
  have hD : (0:ℝ) < tnfwDelta := by norm_num [tnfwDelta]
  have hinv := tendsto_inv_nhdsGT_zero (𝕜 := ℝ)
  have hg : Tendsto (fun Rs : ℝ => r / Rs) (𝓝[>] 0) atTop := by
    simp only [div_eq_mul_inv]
    exact hinv.const_mul_atTop hr
  have hc : Tendsto (fun Rs : ℝ => ({ L with Rs := Rs } : TNFWLens).concentration) (𝓝[>] 0) atTop := by
    have hk : 0 < (3 * L.mass / (4 * π * tnfwDelta * L.rhoc)) ^ ((1 : ℝ) / 3) / (L.d_l * arcsecToRad) := by positivity
    refine (hinv.const_mul_atTop hk).congr fun Rs => ?_
    simp only [TNFWLens.concentration, tnfwConcentration, div_eq_mul_inv, mul_inv]
    ring
  have hm : Tendsto (fun c : ℝ => log (1 + c) - c / (1 + c)) atTop atTop := by
    refine tendsto_atTop_mono' _ ?_ (tendsto_atTop_add_const_right _ (-1)
      (tendsto_log_atTop.comp (tendsto_atTop_add_const_left _ 1 tendsto_id)))
    filter_upwards [eventually_gt_atTop 0] with c hc
    have : c / (1 + c) ≤ 1 := by rw [div_le_one (by positivity)]; linarith
    simp only [Function.comp_apply, id]
    linarith
  have hM : Tendsto (fun Rs : ℝ => ({ L with Rs := Rs } : TNFWLens).M0) (𝓝[>] 0) (𝓝 0) := by
    refine ((tendsto_const_nhds (x := L.mass)).div_atTop (hm.comp hc)).congr' ?_
    filter_upwards [self_mem_nhdsWithin] with Rs hRs
    exact ((tnfwM0_scale { L with Rs := Rs }
      ⟨hL.G, hL.mass, hRs, hL.tau, hL.rhoc, hL.d_l, hL.d_s, hL.d_ls, hL.sigmacr⟩ hi).2).symm
  have hb := (hM.mul_const (L.tau ^ 2 / (L.tau ^ 2 + 1) ^ 2)).mul ((tendsto_tnfwBracket ht).comp hg)
  rw [zero_mul, zero_mul] at hb
  refine hb.congr' ?_
  filter_upwards [hg.eventually_gt_atTop 2] with Rs hR
  have hw : 1e-2 < |r / Rs - 1| := by rw [abs_of_pos (by linarith)]; norm_num; linarith
  simp only [TNFWLens.massEnclosed, tnfwMassEnclosed, tnfwF_eq hw, Function.comp_apply]

/-! ### C137 -/

theorem point_of_mass {Gc2 d_ls d_l d_s : ℝ} (hG : 0 < Gc2) (h1 : 0 < d_ls) (h2 : 0 < d_l) (h3 : 0 < d_s)
    (x0 y0 x y : ℝ) {M : ℝ → ℝ} {m : ℝ} (hM : ∀ t, 0 < t → 0 ≤ M t) (hm : 0 ≤ m) (h : Tendsto M (𝓝[>] 0) (𝓝 m)) :
    Tendsto (fun t => pointDeflection x0 y0 (massToReinPoint Gc2 (M t) d_ls d_l d_s) 0 x y) (𝓝[>] 0)
      (𝓝 (pointDeflection x0 y0 (massToReinPoint Gc2 m d_ls d_l d_s) 0 x y)) := by
  rw [pointDeflection_mass hG hm h1 h2 h3]
  have h' := ((((h.const_mul (4 * Gc2)).mul_const d_ls).div_const (d_l * d_s)).const_mul (radToArcsec ^ 2))
  have h'' := ((h'.const_mul (x - x0)).div_const (√((x - x0) ^ 2 + (y - y0) ^ 2) ^ 2)).prodMk_nhds
    ((h'.const_mul (y - y0)).div_const (√((x - x0) ^ 2 + (y - y0) ^ 2) ^ 2))
  refine h''.congr' ?_
  filter_upwards [self_mem_nhdsWithin] with t ht
  rw [pointDeflection_mass hG (hM t ht) h1 h2 h3]

/-- With `interpret_m_total_mass=True` a truncated NFW lens becomes the `Point` lens of its mass when its truncation radius
shrinks, and when its scale radius shrinks. -/
theorem C137_point_mass (L : TNFWLens) (hL : L.Ok) (hs : L.s = 0) (hi : L.interpretTotal = true) (x y : ℝ)
    (hxy : (x, y) ≠ (L.x0, L.y0)) :
    let P := pointDeflection L.x0 L.y0 (massToReinPoint L.Gc2 L.mass L.d_ls L.d_l L.d_s) 0 x y
    Tendsto (fun tau => { L with tau := tau }.toTNFW.deflection x y) (𝓝[>] 0) (𝓝 P) ∧
    Tendsto (fun Rs => { L with Rs := Rs }.toTNFW.deflection x y) (𝓝[>] 0) (𝓝 P) := by
  intro P
  have hR := radius_pos (sub_ne_zero_or hxy)
  have hok1 : ∀ t, 0 < t → ({ L with tau := t } : TNFWLens).Ok := fun t ht =>
    ⟨hL.G, hL.mass, hL.Rs, ht, hL.rhoc, hL.d_l, hL.d_s, hL.d_ls, hL.sigmacr⟩
  have hok2 : ∀ t, 0 < t → ({ L with Rs := t } : TNFWLens).Ok := fun t ht =>
    ⟨hL.G, hL.mass, ht, hL.tau, hL.rhoc, hL.d_l, hL.d_s, hL.d_ls, hL.sigmacr⟩
  constructor
  · have h := point_of_mass hL.G hL.d_ls hL.d_l hL.d_s L.x0 L.y0 x y
      (M := fun t => ({ L with tau := t } : TNFWLens).massEnclosed √((x - L.x0) ^ 2 + (y - L.y0) ^ 2))
      (fun t ht => TNFWLens.massEnclosed_nonneg _ (hok1 t ht) hR) hL.mass.le
      ((tendsto_tnfw_mass_tau hR hL.Rs).congr fun t => by simp [TNFWLens.massEnclosed, TNFWLens.M0, hi])
    refine h.congr' ?_
    filter_upwards [self_mem_nhdsWithin] with t ht
    exact (C110_tnfw { L with tau := t } (hok1 t ht) hs x y hxy).symm
  · have h := point_of_mass hL.G hL.d_ls hL.d_l hL.d_s L.x0 L.y0 x y
      (M := fun t => ({ L with Rs := t } : TNFWLens).massEnclosed √((x - L.x0) ^ 2 + (y - L.y0) ^ 2))
      (fun t ht => TNFWLens.massEnclosed_nonneg _ (hok2 t ht) hR) hL.mass.le
      ((tendsto_tnfw_mass_Rs hR hL.tau).congr fun t => by simp [TNFWLens.massEnclosed, TNFWLens.M0, hi])
    refine h.congr' ?_
    filter_upwards [self_mem_nhdsWithin] with t ht
    exact (C110_tnfw { L with Rs := t } (hok2 t ht) hs x y hxy).symm

example := (C137_point_mass (tnfwEx true) (tnfwEx_ok true) rfl rfl 3 4 (by simp [tnfwEx])).1

/-- With `interpret_m_total_mass=False` it deflects less and less, and nothing in the end, both ways. -/
theorem C137_vanishes (L : TNFWLens) (hL : L.Ok) (hs : L.s = 0) (hi : L.interpretTotal = false) (x y : ℝ)
    (hxy : (x, y) ≠ (L.x0, L.y0)) :
    Tendsto (fun tau => { L with tau := tau }.toTNFW.deflection x y) (𝓝[>] 0) (𝓝 0) ∧
    Tendsto (fun Rs => { L with Rs := Rs }.toTNFW.deflection x y) (𝓝[>] 0) (𝓝 0) := by
  have hR := radius_pos (sub_ne_zero_or hxy)
  have hok1 : ∀ t, 0 < t → ({ L with tau := t } : TNFWLens).Ok := fun t ht =>
    ⟨hL.G, hL.mass, hL.Rs, ht, hL.rhoc, hL.d_l, hL.d_s, hL.d_ls, hL.sigmacr⟩
  have hok2 : ∀ t, 0 < t → ({ L with Rs := t } : TNFWLens).Ok := fun t ht =>
    ⟨hL.G, hL.mass, ht, hL.tau, hL.rhoc, hL.d_l, hL.d_s, hL.d_ls, hL.sigmacr⟩
  have hP : pointDeflection L.x0 L.y0 (massToReinPoint L.Gc2 0 L.d_ls L.d_l L.d_s) 0 x y = 0 := by
    rw [pointDeflection_mass hL.G le_rfl hL.d_ls hL.d_l hL.d_s]
    simp
  rw [← hP]
  constructor
  · have h := point_of_mass hL.G hL.d_ls hL.d_l hL.d_s L.x0 L.y0 x y
      (M := fun t => ({ L with tau := t } : TNFWLens).massEnclosed √((x - L.x0) ^ 2 + (y - L.y0) ^ 2))
      (fun t ht => TNFWLens.massEnclosed_nonneg _ (hok1 t ht) hR) le_rfl
      ((tendsto_tnfw_mass_tau_scale (M0 := L.M0) hR hL.Rs).congr fun t => by simp [TNFWLens.massEnclosed, TNFWLens.M0, hi])
    refine h.congr' ?_
    filter_upwards [self_mem_nhdsWithin] with t ht
    exact (C110_tnfw { L with tau := t } (hok1 t ht) hs x y hxy).symm
  · have h := point_of_mass hL.G hL.d_ls hL.d_l hL.d_s L.x0 L.y0 x y
      (M := fun t => ({ L with Rs := t } : TNFWLens).massEnclosed √((x - L.x0) ^ 2 + (y - L.y0) ^ 2))
      (fun t ht => TNFWLens.massEnclosed_nonneg _ (hok2 t ht) hR) le_rfl (tendsto_tnfw_mass_Rs_scale L hL hi hR)
    refine h.congr' ?_
    filter_upwards [self_mem_nhdsWithin] with t ht
    exact (C110_tnfw { L with Rs := t } (hok2 t ht) hs x y hxy).symm

example := (C137_vanishes (tnfwEx false) (tnfwEx_ok false) rfl rfl 3 4 (by simp [tnfwEx])).2

/-- The claim: within the declared ranges (lenses/tnfw.py:155-157) the deflection off the centre is a number. -/
def C137_statement : Prop :=
  ∀ L : TNFWLens, { L with Rs := 1, tau := 1 }.Ok → 0 ≤ L.Rs → 0 ≤ L.tau → ∀ x y, (x, y) ≠ (L.x0, L.y0) → 0 ≤ L.s →
    IsFin (L.deflectionFlt x y).1 ∧ IsFin (L.deflectionFlt x y).2

theorem tnfwFFlt_fin {g : ℝ} (hg : 0 < g) : tnfwFFlt (fin g) = fin (tnfwF g) := by
  have e1 : (fin g).ltc (1 - 1e-2) ↔ g < 1 - 1e-2 := Iff.rfl
  have e2 : (fin g).gtc (1 + 1e-2) ↔ g > 1 + 1e-2 := Iff.rfl
  have e3 : Flt.clampMin (1 + 1e-3) (fin g) = fin (max g (1 + 1e-3)) := rfl
  have e4 : Flt.clampMax (1 - 1e-3) (fin g) = fin (min g (1 - 1e-3)) := rfl
  simp only [tnfwFFlt, tnfwF, e1, e2, e3, e4]
  have hl : 0 < min g (1 - 1e-3) := lt_min hg (by norm_num)
  have hl1 : min g (1 - 1e-3) < 1 := (min_le_right _ _).trans_lt (by norm_num)
  have hu : 1 < max g (1 + 1e-3) := (show (1 : ℝ) < 1 + 1e-3 by norm_num).trans_le (le_max_right _ _)
  generalize min g (1 - 1e-3) = l at *
  generalize max g (1 + 1e-3) = u at *
  have s1 : 0 < 1 - l ^ 2 := by nlinarith
  have s2 : 0 < u ^ 2 - 1 := by nlinarith
  split_ifs with h1 h2
  · rw [Flt.fin_div _ hl.ne', Flt.arccosh_fin (by rw [le_div_iff₀ hl]; linarith), Flt.fin_sq, Flt.fin_sub,
      Flt.sqrt_fin s1.le, Flt.fin_div _ (sqrt_pos.2 s1).ne']
  · rw [Flt.fin_div _ (by linarith), Flt.arccos_fin, Flt.fin_sq, Flt.fin_sub, Flt.sqrt_fin s2.le,
      Flt.fin_div _ (sqrt_pos.2 s2).ne']
    rw [abs_of_pos (by positivity), div_le_one (by linarith)]
    exact hu.le
  · rw [Flt.fin_sub, Flt.fin_mul, Flt.fin_div _ (by norm_num), Flt.fin_sub, Flt.fin_sq, Flt.fin_mul,
      Flt.fin_div _ (by norm_num), Flt.fin_add]

theorem tnfwMassEnclosedFlt_fin {r Rs tau : ℝ} (hr : 0 < r) (hRs : 0 < Rs) (ht : 0 < tau) (M0 : ℝ) :
    tnfwMassEnclosedFlt (fin r) (fin Rs) (fin tau) (fin M0) = fin (tnfwMassEnclosed r Rs tau M0) := by
  have hg : 0 < r / Rs := div_pos hr hRs
  simp only [tnfwMassEnclosedFlt, tnfwMassEnclosed]
  rw [Flt.fin_div _ hRs.ne', tnfwFFlt_fin hg]
  generalize r / Rs = g at *
  have hL : tnfwLFlt (fin g) (fin tau) = fin (tnfwL g tau) := by
    rw [tnfwLFlt, tnfwL, Flt.fin_sq, Flt.fin_sq, Flt.fin_add, Flt.sqrt_fin (by positivity), Flt.fin_add,
      Flt.fin_div _ (by positivity), Flt.log_fin (by positivity)]
  rw [hL]
  simp only [Flt.fin_sq, Flt.fin_add, Flt.fin_sub, Flt.fin_mul, Flt.log_fin ht]
  rw [Flt.fin_div _ (by positivity), Flt.sqrt_fin (by positivity), Flt.fin_div _ ht.ne']
  simp only [Flt.fin_add, Flt.fin_mul]

theorem TNFWLens.M0Flt_fin (L : TNFWLens) (hL : L.Ok) : L.M0Flt = fin L.M0 := by
  have ha := arcsecToRad_pos
  have hpi := pi_pos
  have h1 := hL.mass; have h4 := hL.rhoc; have h5 := hL.Rs; have h6 := hL.d_l; have ht := hL.tau
  have hD : (0:ℝ) < tnfwDelta := by norm_num [tnfwDelta]
  cases hi : L.interpretTotal
  · simp only [TNFWLens.M0Flt, TNFWLens.M0, hi, Bool.false_eq_true, if_false, tnfwM0Scale]
    have hc : tnfwConcentrationFlt L.mass L.Rs L.rhoc L.d_l tnfwDelta = fin (tnfwConcentration L.mass L.Rs L.rhoc L.d_l tnfwDelta) := by
      rw [tnfwConcentrationFlt, tnfwConcentration, Flt.fin_div _ (by positivity), Flt.pow_fin _ (by positivity),
        Flt.fin_div _ (by positivity)]
    have hcp := (tnfwM0_scale L hL hi).1
    change 0 < tnfwConcentration L.mass L.Rs L.rhoc L.d_l tnfwDelta at hcp
    rw [hc]
    generalize tnfwConcentration L.mass L.Rs L.rhoc L.d_l tnfwDelta = c at hcp
    have hm := nfw_m_pos hcp
    rw [tnfwScaleDensityFlt, tnfwScaleDensity]
    simp only [Flt.fin_add, Flt.fin_mul]
    rw [Flt.log_fin (by positivity), Flt.fin_div _ (by positivity), Flt.fin_sub, Flt.fin_div _ hm.ne', Flt.fin_mul]
    congr 2
    ring
  · simp only [TNFWLens.M0Flt, TNFWLens.M0, hi, if_true, tnfwM0TotFlt, tnfwM0Tot]
    have hn := tnfw_norm_pos ht
    simp only [Flt.fin_sq, Flt.fin_add, Flt.fin_sub, Flt.fin_mul, Flt.log_fin ht]
    rw [Flt.fin_div _ (by positivity)]

/-- What holds: with positive truncation and scale radii the deflection off the centre is the number of the formulas. -/
theorem C137_numbers_partial (L : TNFWLens) (hL : L.Ok) (hs : 0 ≤ L.s) (x y : ℝ) (hxy : (x, y) ≠ (L.x0, L.y0)) :
    L.deflectionFlt x y = (fin (L.toTNFW.deflection x y).1, fin (L.toTNFW.deflection x y).2) := by
  have hR := radius_pos (sub_ne_zero_or hxy)
  have ha := arcsecToRad_pos
  have h6 := hL.d_l
  simp only [TNFWLens.deflectionFlt, TNFW.deflection, TNFW.physicalDeflection, TNFWLens.toTNFW, translateRotate]
  have hr : 0 < √((x - L.x0) ^ 2 + (y - L.y0) ^ 2) + L.s := by linarith
  rw [L.M0Flt_fin hL, tnfwMassEnclosedFlt_fin hr hL.Rs hL.tau, Flt.fin_div _ (by positivity)]
  simp only [Flt.fin_mul]

example := C137_numbers_partial (tnfwEx true) (tnfwEx_ok true) le_rfl 3 4 (by simp [tnfwEx])

/-- Truncation radius 0, or scale radius 0: NaN at every position off the centre, under both readings of the mass. -/
theorem C137_fails_ends (L : TNFWLens) (hs : 0 ≤ L.s) (x y : ℝ) (hxy : (x, y) ≠ (L.x0, L.y0))
    (h : (L.tau = 0 ∧ 0 < L.Rs) ∨ (L.Rs = 0 ∧ 0 ≤ L.tau)) : L.deflectionFlt x y = (Flt.nan, Flt.nan) := by
  have hR := radius_pos (sub_ne_zero_or hxy)
  have hr : 0 < √((x - L.x0) ^ 2 + (y - L.y0) ^ 2) + L.s := by linarith
  have key : ∀ M0, tnfwMassEnclosedFlt (fin (√((x - L.x0) ^ 2 + (y - L.y0) ^ 2) + L.s)) (fin L.Rs) (fin L.tau) M0 = Flt.nan := by
    intro M0
    generalize √((x - L.x0) ^ 2 + (y - L.y0) ^ 2) + L.s = r at hr
    rcases h with ⟨h, h'⟩ | ⟨h, h'⟩
    · have hg : 0 < r / L.Rs := div_pos hr h'
      have hL : tnfwLFlt (fin (r / L.Rs)) (fin 0) = fin 0 := by
        rw [tnfwLFlt, Flt.fin_sq, Flt.fin_sq, Flt.fin_add, zero_pow two_ne_zero, zero_add, Flt.sqrt_fin (by positivity),
          sqrt_sq hg.le, Flt.fin_add, zero_add, Flt.fin_div _ hg.ne', div_self hg.ne', Flt.log_fin one_pos, log_one]
      rw [tnfwMassEnclosedFlt]
      simp only [h, Flt.fin_div r h'.ne', hL]
      have e : (Flt.sq (fin 0) - fin 1) * fin 0 / fin 0 = Flt.nan := by
        rw [Flt.fin_sq, Flt.fin_sub, Flt.fin_mul, mul_zero, Flt.zero_div_zero]
      simp [e]
    · have hL : tnfwLFlt Flt.pinf (fin L.tau) = Flt.nan := by
        have e1 : Flt.sq (fin L.tau) + Flt.sq Flt.pinf = Flt.pinf := rfl
        have e2 : Flt.sqrt Flt.pinf = Flt.pinf := rfl
        have e3 : fin L.tau + Flt.pinf = Flt.pinf := rfl
        have e4 : Flt.pinf / Flt.pinf = Flt.nan := rfl
        rw [tnfwLFlt, e1, e2, e3, e4, Flt.log_nan]
      rw [tnfwMassEnclosedFlt]
      simp only [h, Flt.pos_div_zero hr, hL]
      simp
  simp only [TNFWLens.deflectionFlt, translateRotate, key]
  simp

example : { tnfwEx true with tau := 0 }.deflectionFlt 3 4 = (Flt.nan, Flt.nan) ∧
    { tnfwEx false with Rs := 0 }.deflectionFlt 3 4 = (Flt.nan, Flt.nan) :=
  ⟨C137_fails_ends _ le_rfl 3 4 (by simp [tnfwEx]) (.inl ⟨rfl, by norm_num [tnfwEx]⟩),
    C137_fails_ends _ le_rfl 3 4 (by simp [tnfwEx]) (.inr ⟨rfl, by norm_num [tnfwEx]⟩)⟩

/-- The full claim fails: on each end of the range alone. -/
theorem C137_fails : ¬ C137_statement := by
  intro h
  have h1 := (h { tnfwEx true with tau := 0 } (by
    have := tnfwEx_ok true
    exact ⟨this.G, this.mass, one_pos, one_pos, this.rhoc, this.d_l, this.d_s, this.d_ls, this.sigmacr⟩)
    (by norm_num [tnfwEx]) le_rfl 3 4 (by simp [tnfwEx]) le_rfl).1
  rw [C137_fails_ends _ le_rfl 3 4 (by simp [tnfwEx]) (.inl ⟨rfl, by norm_num [tnfwEx]⟩)] at h1
  exact Flt.not_isFin_nan h1

end Caustics

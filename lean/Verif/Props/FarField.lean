import Verif.Props.TNFWWindow
import Verif.Props.LensHalo

/-!
# C110: a halo acts like a point mass

`PseudoJaffe` and `TNFW` deflect, at every position, like a `Point` lens of the mass they report inside that radius, with the
Einstein radius that `mass_to_rein` gives it; far away like a `Point` lens of their whole mass.
-/

open Real Filter Topology

namespace Caustics

theorem massToReinPoint_sq {Gc2 M d_ls d_l d_s : ℝ} (h : 0 ≤ 4 * Gc2 * M * d_ls / (d_l * d_s)) :
    massToReinPoint Gc2 M d_ls d_l d_s ^ 2 = radToArcsec ^ 2 * (4 * Gc2 * M * d_ls / (d_l * d_s)) := by
  rw [massToReinPoint, mul_pow, sq_sqrt h]

/-- A point lens of mass `M`. -/
theorem pointDeflection_mass {Gc2 M d_ls d_l d_s : ℝ} (hG : 0 < Gc2) (hM : 0 ≤ M) (h1 : 0 < d_ls) (h2 : 0 < d_l) (h3 : 0 < d_s)
    (x0 y0 x y : ℝ) :
    pointDeflection x0 y0 (massToReinPoint Gc2 M d_ls d_l d_s) 0 x y =
      ((x - x0) * (radToArcsec ^ 2 * (4 * Gc2 * M * d_ls / (d_l * d_s))) / √((x - x0) ^ 2 + (y - y0) ^ 2) ^ 2,
       (y - y0) * (radToArcsec ^ 2 * (4 * Gc2 * M * d_ls / (d_l * d_s))) / √((x - x0) ^ 2 + (y - y0) ^ 2) ^ 2) := by
  simp only [pointDeflection, translateRotate, add_zero, massToReinPoint_sq (show 0 ≤ 4 * Gc2 * M * d_ls / (d_l * d_s) by positivity)]

theorem pjMassEnclosed_nonneg {mass Rc Rs R : ℝ} (hm : 0 ≤ mass) (hRc : 0 < Rc) (hRs : 0 < Rs) (hne : Rc ≠ Rs) (hR : 0 ≤ R) :
    0 ≤ pjMassEnclosed R mass Rc Rs 0 := by
  obtain ⟨h0, hmono, -⟩ := C63_pseudo_jaffe_total mass Rc Rs hm hRc hRs hne
  have := hmono 0 R le_rfl hR
  rwa [h0] at this

/-- A pseudo-Jaffe lens deflects like the `Point` lens of the mass inside the radius of the position. -/
theorem C110_pseudo_jaffe (L : PJaffe) (hL : L.Ok) (hm : 0 ≤ L.mass) (hs : L.s = 0) (x y : ℝ) (hxy : (x, y) ≠ (L.x0, L.y0)) :
    L.deflection x y = pointDeflection L.x0 L.y0
      (massToReinPoint L.Gc2 (pjMassEnclosed √((x - L.x0) ^ 2 + (y - L.y0) ^ 2) L.mass L.Rc L.Rs 0) L.d_ls L.d_l L.d_s) 0 x y := by
  have hR := radius_pos (sub_ne_zero_or hxy)
  rw [pointDeflection_mass hL.G (pjMassEnclosed_nonneg hm hL.Rc hL.Rs hL.ne hR.le) hL.d_ls hL.d_l hL.d_s,
    C54_pseudo_jaffe_mass L hL hs x y hxy]
  have hdl := hL.d_l; have hds := hL.d_s; have hdls := hL.d_ls; have hG := hL.G
  have hr := radToArcsec_pos
  have hpi := pi_pos
  simp only [hL.sigmacr, arcsecToRad]
  generalize √((x - L.x0) ^ 2 + (y - L.y0) ^ 2) = R at *
  refine Prod.ext ?_ ?_ <;> · simp only []; field_simp

theorem TNFWLens.massEnclosed_nonneg (L : TNFWLens) (hL : L.Ok) {R : ℝ} (hR : 0 < R) : 0 ≤ L.massEnclosed R := by
  have hM := C63_tnfw_pos L hL
  have hOk : L.toTNFW.Ok := ⟨hL.G, hL.Rs, hL.tau, hL.d_l, hL.d_s, hL.d_ls, hL.sigmacr⟩
  have h := C107_mass L.toTNFW hOk hM.le R hR
  have h0 : 0 ≤ L.toTNFW.massIn R := by
    rw [L.toTNFW.massIn_eq hOk hM.le R hR]
    have := tnfwMb_pos hOk.tau (div_pos hR hOk.Rs)
    have h2 : 0 < L.toTNFW.M0 := hM
    positivity
  have := (abs_le.1 h).1
  change 0 ≤ tnfwMassEnclosed R L.toTNFW.Rs L.toTNFW.tau L.toTNFW.M0
  nlinarith

/-- A truncated NFW lens deflects like the `Point` lens of the mass inside the radius of the position. -/
theorem C110_tnfw (L : TNFWLens) (hL : L.Ok) (hs : L.s = 0) (x y : ℝ) (hxy : (x, y) ≠ (L.x0, L.y0)) :
    L.toTNFW.deflection x y = pointDeflection L.x0 L.y0
      (massToReinPoint L.Gc2 (L.massEnclosed √((x - L.x0) ^ 2 + (y - L.y0) ^ 2)) L.d_ls L.d_l L.d_s) 0 x y := by
  have h' := sub_ne_zero_or hxy
  have hR := radius_pos h'
  rw [pointDeflection_mass hL.G (L.massEnclosed_nonneg hL hR) hL.d_ls hL.d_l hL.d_s]
  have hdl := hL.d_l; have hds := hL.d_s; have hdls := hL.d_ls; have hG := hL.G
  have hr := radToArcsec_pos
  simp only [TNFW.deflection, TNFW.physicalDeflection, translateRotate, TNFWLens.toTNFW, hs, add_zero, cos_arctan2 h', sin_arctan2 h',
    TNFWLens.massEnclosed, arcsecToRad]
  generalize √((x - L.x0) ^ 2 + (y - L.y0) ^ 2) = R at *
  refine Prod.ext ?_ ?_ <;> · simp only []; field_simp

/-! ### Far away -/

/-- The deflection of a point lens is proportional to its mass. -/
theorem pointDeflection_ratio {Gc2 M M' d_ls d_l d_s e : ℝ} (hG : 0 < Gc2) (hM : 0 ≤ M) (hM' : 0 ≤ M') (h1 : 0 < d_ls)
    (h2 : 0 < d_l) (h3 : 0 < d_s) (h : |M' - M| ≤ e * M) (x0 y0 x y : ℝ) :
    |(pointDeflection x0 y0 (massToReinPoint Gc2 M' d_ls d_l d_s) 0 x y).1 -
        (pointDeflection x0 y0 (massToReinPoint Gc2 M d_ls d_l d_s) 0 x y).1| ≤
      e * |(pointDeflection x0 y0 (massToReinPoint Gc2 M d_ls d_l d_s) 0 x y).1| ∧
    |(pointDeflection x0 y0 (massToReinPoint Gc2 M' d_ls d_l d_s) 0 x y).2 -
        (pointDeflection x0 y0 (massToReinPoint Gc2 M d_ls d_l d_s) 0 x y).2| ≤
      e * |(pointDeflection x0 y0 (massToReinPoint Gc2 M d_ls d_l d_s) 0 x y).2| := by
  rw [pointDeflection_mass hG hM h1 h2 h3, pointDeflection_mass hG hM' h1 h2 h3]
  have key : ∀ u : ℝ, |u * (radToArcsec ^ 2 * (4 * Gc2 * M' * d_ls / (d_l * d_s))) / √((x - x0) ^ 2 + (y - y0) ^ 2) ^ 2 -
      u * (radToArcsec ^ 2 * (4 * Gc2 * M * d_ls / (d_l * d_s))) / √((x - x0) ^ 2 + (y - y0) ^ 2) ^ 2| ≤
      e * |u * (radToArcsec ^ 2 * (4 * Gc2 * M * d_ls / (d_l * d_s))) / √((x - x0) ^ 2 + (y - y0) ^ 2) ^ 2| := by
    intro u
    set k := u * (radToArcsec ^ 2 * (4 * Gc2 * d_ls / (d_l * d_s))) / √((x - x0) ^ 2 + (y - y0) ^ 2) ^ 2 with hk
    have a1 : ∀ m, u * (radToArcsec ^ 2 * (4 * Gc2 * m * d_ls / (d_l * d_s))) / √((x - x0) ^ 2 + (y - y0) ^ 2) ^ 2 = k * m := by
      intro m; rw [hk]; ring
    rw [a1, a1, ← mul_sub, abs_mul, abs_mul, abs_of_nonneg hM, mul_left_comm]
    exact mul_le_mul_of_nonneg_left h (abs_nonneg _)
  exact ⟨key _, key _⟩

/-- Far from a pseudo-Jaffe lens the deflection is that of a `Point` lens of its mass, to `(Rc + Rs) / 2R`. -/
theorem C110_pseudo_jaffe_far (L : PJaffe) (hL : L.Ok) (hm : 0 ≤ L.mass) (hs : L.s = 0) (x y : ℝ) (hxy : (x, y) ≠ (L.x0, L.y0)) :
    let R := √((x - L.x0) ^ 2 + (y - L.y0) ^ 2)
    let P := pointDeflection L.x0 L.y0 (massToReinPoint L.Gc2 L.mass L.d_ls L.d_l L.d_s) 0 x y
    |(L.deflection x y).1 - P.1| ≤ (L.Rc + L.Rs) / (2 * R) * |P.1| ∧
      |(L.deflection x y).2 - P.2| ≤ (L.Rc + L.Rs) / (2 * R) * |P.2| := by
  intro R P
  have hR : 0 < R := radius_pos (sub_ne_zero_or hxy)
  have hRc := hL.Rc; have hRs := hL.Rs
  have hne : L.Rs - L.Rc ≠ 0 := sub_ne_zero.mpr hL.ne.symm
  rw [C110_pseudo_jaffe L hL hm hs x y hxy]
  refine pointDeflection_ratio hL.G hm (pjMassEnclosed_nonneg hm hL.Rc hL.Rs hL.ne hR.le) hL.d_ls hL.d_l hL.d_s ?_ _ _ _ _
  have p1 : R < √(L.Rc ^ 2 + R ^ 2) := by
    refine (lt_sqrt hR.le).2 ?_; nlinarith
  have p2 : R < √(L.Rs ^ 2 + R ^ 2) := by
    refine (lt_sqrt hR.le).2 ?_; nlinarith
  have q1 : √(L.Rc ^ 2 + R ^ 2) ^ 2 = L.Rc ^ 2 + R ^ 2 := sq_sqrt (by positivity)
  have q2 : √(L.Rs ^ 2 + R ^ 2) ^ 2 = L.Rs ^ 2 + R ^ 2 := sq_sqrt (by positivity)
  simp only [pjMassEnclosed, add_zero]
  generalize √(L.Rc ^ 2 + R ^ 2) = a at *
  generalize √(L.Rs ^ 2 + R ^ 2) = b at *
  have e1 : L.mass * (a - L.Rc - b + L.Rs) / (L.Rs - L.Rc) - L.mass = -(L.mass * ((L.Rc + L.Rs) / (a + b))) := by
    have hab : 0 < a + b := by linarith
    field_simp
    linear_combination L.mass * (q1 - q2)
  rw [e1, abs_neg, abs_of_nonneg (by have : 0 < a + b := by linarith
                                     positivity), mul_comm]
  refine mul_le_mul_of_nonneg_right ?_ hm
  exact div_le_div_of_nonneg_left (by positivity) (by positivity) (by linarith)

/-- With `interpret_m_total_mass=True` the deflection of a truncated NFW lens is far away that of a `Point` lens of its mass. -/
theorem C110_tnfw_far (L : TNFWLens) (hL : L.Ok) (hs : L.s = 0) (hi : L.interpretTotal = true) (e : ℝ) (he : 0 < e) :
    ∃ R0, ∀ x y, R0 < √((x - L.x0) ^ 2 + (y - L.y0) ^ 2) →
      let P := pointDeflection L.x0 L.y0 (massToReinPoint L.Gc2 L.mass L.d_ls L.d_l L.d_s) 0 x y
      |(L.toTNFW.deflection x y).1 - P.1| ≤ e * |P.1| ∧ |(L.toTNFW.deflection x y).2 - P.2| ≤ e * |P.2| := by
  have hev := (C63_tnfw_total L hL hi).eventually (Metric.ball_mem_nhds _ (mul_pos he hL.mass))
  obtain ⟨R0, h0⟩ := eventually_atTop.1 hev
  refine ⟨max R0 0, fun x y hR => ?_⟩
  intro P
  have hR0 : 0 < √((x - L.x0) ^ 2 + (y - L.y0) ^ 2) := lt_of_le_of_lt (le_max_right _ _) hR
  have hxy : (x, y) ≠ (L.x0, L.y0) := by
    rintro h
    obtain ⟨rfl, rfl⟩ := Prod.mk.inj h
    simp at hR0
  rw [C110_tnfw L hL hs x y hxy]
  refine pointDeflection_ratio hL.G hL.mass.le (L.massEnclosed_nonneg hL hR0) hL.d_ls hL.d_l hL.d_s ?_ _ _ _ _
  have := h0 _ ((le_max_left R0 0).trans hR.le)
  exact (show |_ - _| < _ from this).le

theorem tendsto_log_core {a : ℝ} (ha : 0 < a) :
    Tendsto (fun R => log (a + √(a ^ 2 + R ^ 2)) - log R) atTop (𝓝 0) ∧
    Tendsto (fun R => √(a ^ 2 + R ^ 2) - R) atTop (𝓝 0) := by
  have hinv : Tendsto (fun R : ℝ => a / R) atTop (𝓝 0) := tendsto_const_nhds.div_atTop tendsto_id
  have hs : Tendsto (fun R : ℝ => √((a / R) ^ 2 + 1)) atTop (𝓝 1) := by
    have := ((hinv.pow 2).add_const 1).sqrt
    simpa using this
  have he : ∀ R : ℝ, 0 < R → √(a ^ 2 + R ^ 2) = R * √((a / R) ^ 2 + 1) := by
    intro R hR
    rw [← sqrt_sq hR.le, ← sqrt_mul (sq_nonneg _), sqrt_sq hR.le]
    congr 1
    field_simp
  constructor
  · have h1 := (hinv.add hs).log (by norm_num)
    rw [zero_add, log_one] at h1
    refine h1.congr' ?_
    filter_upwards [eventually_gt_atTop 0] with R hR
    have hp : 0 < a / R + √((a / R) ^ 2 + 1) := by positivity
    rw [he R hR, show a + R * √((a / R) ^ 2 + 1) = R * (a / R + √((a / R) ^ 2 + 1)) by field_simp,
      log_mul hR.ne' hp.ne']
    ring
  · have h1 : Tendsto (fun R => a * ((a / R) / (√((a / R) ^ 2 + 1) + 1))) atTop (𝓝 (a * (0 / (1 + 1)))) :=
      (hinv.div (hs.add_const 1) (by norm_num)).const_mul a
    rw [zero_div, mul_zero] at h1
    refine h1.congr' ?_
    filter_upwards [eventually_gt_atTop 0] with R hR
    rw [he R hR]
    have q : √((a / R) ^ 2 + 1) ^ 2 = (a / R) ^ 2 + 1 := sq_sqrt (by positivity)
    have hp : 0 < √((a / R) ^ 2 + 1) := by positivity
    generalize √((a / R) ^ 2 + 1) = w at *
    have : a ^ 2 / R = R * (w ^ 2 - 1) := by rw [q]; field_simp; ring
    calc a * (a / R / (w + 1)) = a ^ 2 / R / (w + 1) := by ring
      _ = R * w - R := by rw [this]; field_simp; ring

/-- The potential of a pseudo-Jaffe lens is far away that of a `Point` lens of its mass, without an additive constant: their
difference goes to zero. -/
theorem C110_pseudo_jaffe_potential (L : PJaffe) (hL : L.Ok) (hm : 0 ≤ L.mass) (hs : L.s = 0) (e : ℝ) (he : 0 < e) :
    ∃ R0, ∀ x y, R0 < √((x - L.x0) ^ 2 + (y - L.y0) ^ 2) →
      |L.potential x y - pointPotential L.x0 L.y0 (massToReinPoint L.Gc2 L.mass L.d_ls L.d_l L.d_s) 0 x y| < e := by
  have hRc := hL.Rc; have hRs := hL.Rs
  have hdl := hL.d_l; have hds := hL.d_s; have hdls := hL.d_ls; have hG := hL.G
  have hr := radToArcsec_pos
  have hpi := pi_pos
  have hne : L.Rs - L.Rc ≠ 0 := sub_ne_zero.mpr hL.ne.symm
  obtain ⟨c1, c2⟩ := tendsto_log_core hRc
  obtain ⟨s1, s2⟩ := tendsto_log_core hRs
  set K := radToArcsec ^ 2 * (4 * L.Gc2 * L.mass * L.d_ls / (L.d_l * L.d_s)) with hK
  have hlim := (((s2.sub c2).add (c1.const_mul L.Rc)).sub (s1.const_mul L.Rs)).const_mul (-(K / (L.Rs - L.Rc)))
  simp only [sub_zero, mul_zero, add_zero] at hlim
  obtain ⟨R0, h0⟩ := eventually_atTop.1 (hlim.eventually (Metric.ball_mem_nhds 0 he))
  refine ⟨R0, fun x y hR => ?_⟩
  have h := h0 _ hR.le
  rw [dist_zero_right, norm_eq_abs] at h
  refine lt_of_eq_of_lt (congrArg _ ?_) h
  have hsq := radius_sq (x - L.x0) (y - L.y0)
  simp only [PJaffe.potential, pointPotential, translateRotate, hs, add_zero,
    massToReinPoint_sq (show 0 ≤ 4 * L.Gc2 * L.mass * L.d_ls / (L.d_l * L.d_s) by positivity), ← hK]
  generalize √((x - L.x0) ^ 2 + (y - L.y0) ^ 2) = R at *
  rw [← hsq]
  have hc : 8 * π * L.Gc2 * pjKappa0 L.mass L.Rc L.Rs L.d_l 1 * (L.d_l * L.d_ls / L.d_s) * L.Rc * L.Rs / (L.Rs - L.Rc) =
      K / (L.Rs - L.Rc) := by
    rw [hK, pjKappa0, arcsecToRad]
    field_simp
    ring
  rw [hc]
  field_simp
  ring

/-! ### Examples -/

noncomputable def pjEx : PJaffe := ⟨1, 0, 0, 5, 1, 2, 1, 1, 1, 1 / (4 * π), 0⟩

theorem pjEx_ok : pjEx.Ok :=
  ⟨by norm_num [pjEx], by norm_num [pjEx], by norm_num [pjEx], by norm_num [pjEx], by norm_num [pjEx], by norm_num [pjEx],
    by norm_num [pjEx], by norm_num [pjEx]⟩

/-- At a hundred scale radii the deflection is that of the whole mass to less than two percent. -/
example : |(pjEx.deflection 100 0).1 - (pointDeflection 0 0 (massToReinPoint 1 5 1 1 1) 0 100 0).1| ≤
    3 / 200 * |(pointDeflection 0 0 (massToReinPoint 1 5 1 1 1) 0 100 0).1| := by
  have h := (C110_pseudo_jaffe_far pjEx pjEx_ok (by norm_num [pjEx]) rfl 100 0 (by norm_num [pjEx])).1
  have e1 : √(((100 : ℝ) - pjEx.x0) ^ 2 + (0 - pjEx.y0) ^ 2) = 100 := by
    rw [show ((100 : ℝ) - pjEx.x0) ^ 2 + (0 - pjEx.y0) ^ 2 = 100 ^ 2 by norm_num [pjEx]]
    exact sqrt_sq (by norm_num)
  rw [e1, show (pjEx.Rc + pjEx.Rs) / (2 * 100) = 3 / 200 by norm_num [pjEx]] at h
  exact h

example := C110_pseudo_jaffe pjEx pjEx_ok (by norm_num [pjEx]) rfl 3 4 (by norm_num [pjEx])
example := C110_pseudo_jaffe_potential pjEx pjEx_ok (by norm_num [pjEx]) rfl (1 / 10) (by norm_num)
example := C110_tnfw (tnfwEx true) (tnfwEx_ok true) rfl 1 0 (by norm_num [tnfwEx])
example := C110_tnfw_far (tnfwEx true) (tnfwEx_ok true) rfl rfl (1 / 10) (by norm_num)

end Caustics

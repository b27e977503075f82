import Verif.Model.Softening
import Verif.Spec.Softening
import Verif.Props.LensHalo
import Verif.Lemmas.SIE

/-! Checked arithmetic agrees with total arithmetic where nothing goes wrong; a continuous total field
that vanishes at the centre is regular. -/

open Real Filter Topology

namespace Caustics

theorem sqrtOpt_eq {a : ℝ} (h : 0 ≤ a) : sqrtOpt a = some (√a) := if_pos h
theorem logOpt_eq {a : ℝ} (h : 0 < a) : logOpt a = some (log a) := if_pos h
theorem atanhOpt_eq {a : ℝ} (h : |a| < 1) : atanhOpt a = some (artanh a) := if_pos h
theorem acoshOpt_eq {a : ℝ} (h : 1 ≤ a) : acoshOpt a = some (arcosh a) := if_pos h
theorem acosOpt_eq {a : ℝ} (h : |a| ≤ 1) : acosOpt a = some (arccos a) := if_pos h
theorem powOpt_eq {a b : ℝ} (h : 0 < a) : powOpt a b = some (a ^ b) := if_pos (Or.inl h)
theorem divOpt_eq {a b : ℝ} (h : b ≠ 0) : divOpt a b = some (a / b) := if_neg h
theorem divOpt_zero (a : ℝ) : divOpt a 0 = none := if_pos rfl

theorem regular_of {defl : ℝ → ℝ → Option (ℝ × ℝ)} {x0 y0 : ℝ} (f : ℝ → ℝ → ℝ × ℝ)
    (h : ∀ x y, defl x y = some (f x y)) (h0 : f x0 y0 = (0, 0))
    (hc : Tendsto (fun p : ℝ × ℝ => f p.1 p.2) (𝓝 (x0, y0)) (𝓝 (0, 0))) :
    RegularAtCentre defl x0 y0 := by
  refine ⟨fun x y => ⟨_, h x y⟩, by rw [h, h0], fun ε hε => ?_⟩
  obtain ⟨δ, hδ, hb⟩ := Metric.tendsto_nhds_nhds.1 hc ε hε
  refine ⟨δ, hδ, fun x y a hx hy ha => ?_⟩
  have := hb (x := (x, y)) (by
    rw [Prod.dist_eq, Real.dist_eq, Real.dist_eq]; exact max_lt hx hy)
  rw [h] at ha
  obtain rfl := Option.some.inj ha
  rw [Prod.dist_eq, Real.dist_eq, Real.dist_eq, sub_zero, sub_zero] at this
  exact max_lt_iff.1 this

theorem sisDeflectionOpt_eq {x0 y0 Rein s x y : ℝ} (h : √((x - x0) ^ 2 + (y - y0) ^ 2) + s ≠ 0) :
    sisDeflectionOpt x0 y0 Rein s x y = some (sisDeflection x0 y0 Rein s x y) := by
  simp only [sisDeflectionOpt, sisDeflection, translateRotate]
  rw [sqrtOpt_eq (by positivity)]
  simp only [Option.bind_eq_bind, Option.bind_some, divOpt_eq h]
  rfl

theorem pointDeflectionOpt_eq {x0 y0 Rein s x y : ℝ}
    (h : √((x - x0) ^ 2 + (y - y0) ^ 2) + s ≠ 0) :
    pointDeflectionOpt x0 y0 Rein s x y = some (pointDeflection x0 y0 Rein s x y) := by
  simp only [pointDeflectionOpt, pointDeflection, translateRotate]
  rw [sqrtOpt_eq (by positivity)]
  simp only [Option.bind_eq_bind, Option.bind_some, divOpt_eq (pow_ne_zero 2 h)]
  rfl

theorem nfwHOpt_eq {x : ℝ} (hx : 0 < x) : nfwHOpt x = some (nfwH x) := by
  simp only [nfwHOpt, nfwH]
  rw [logOpt_eq (by positivity)]
  simp only [Option.bind_eq_bind, Option.bind_some]
  split_ifs with h1 h2
  · have hg : (1 + 1e-6 : ℝ) ≤ max x (1 + 1e-6) := le_max_right _ _
    generalize max x (1 + 1e-6) = w at hg
    have hw : 1 < w := by norm_num at hg; linarith
    rw [divOpt_eq (by positivity)]
    simp only [Option.bind_some]
    rw [acosOpt_eq (by rw [abs_of_pos (by positivity), div_le_one (by positivity)]; exact hw.le),
      sqrtOpt_eq (by nlinarith)]
    simp only [Option.bind_some]
    rw [divOpt_eq (sqrt_pos.2 (by nlinarith)).ne']
    rfl
  · have hl : min x (1 - 1e-6) ≤ (1 - 1e-6 : ℝ) := min_le_right _ _
    have hp : 0 < min x (1 - 1e-6) := lt_min hx (by norm_num)
    generalize min x (1 - 1e-6) = w at hl hp
    have hw : w < 1 := by norm_num at hl; linarith
    rw [divOpt_eq (by positivity)]
    simp only [Option.bind_some]
    rw [acoshOpt_eq (by rw [le_div_iff₀ hp]; linarith), sqrtOpt_eq (by nlinarith)]
    simp only [Option.bind_some]
    rw [divOpt_eq (sqrt_pos.2 (by nlinarith)).ne']
    rfl
  · rfl

theorem tnfwFOpt_eq {x : ℝ} (hx : 0 < x) : tnfwFOpt x = some (tnfwF x) := by
  simp only [tnfwFOpt, tnfwF]
  split_ifs with h1 h2
  · have hl : min x (1 - 1e-3) ≤ (1 - 1e-3 : ℝ) := min_le_right _ _
    have hp : 0 < min x (1 - 1e-3) := lt_min hx (by norm_num)
    generalize min x (1 - 1e-3) = w at hl hp
    have hw : w < 1 := by norm_num at hl; linarith
    rw [divOpt_eq (by positivity)]
    simp only [Option.bind_eq_bind, Option.bind_some]
    rw [acoshOpt_eq (by rw [le_div_iff₀ hp]; linarith), sqrtOpt_eq (by nlinarith)]
    simp only [Option.bind_some]
    rw [divOpt_eq (sqrt_pos.2 (by nlinarith)).ne']
  · have hg : (1 + 1e-3 : ℝ) ≤ max x (1 + 1e-3) := le_max_right _ _
    generalize max x (1 + 1e-3) = w at hg
    have hw : 1 < w := by norm_num at hg; linarith
    rw [divOpt_eq (by positivity)]
    simp only [Option.bind_eq_bind, Option.bind_some]
    rw [acosOpt_eq (by rw [abs_of_pos (by positivity), div_le_one (by positivity)]; exact hw.le),
      sqrtOpt_eq (by nlinarith)]
    simp only [Option.bind_some]
    rw [divOpt_eq (sqrt_pos.2 (by nlinarith)).ne']
  · rfl

theorem tnfwMassEnclosedOpt_eq {r Rs tau : ℝ} (M0 : ℝ) (hr : 0 < r) (hR : 0 < Rs) (ht : 0 < tau) :
    tnfwMassEnclosedOpt r Rs tau M0 = some (tnfwMassEnclosed r Rs tau M0) := by
  simp only [tnfwMassEnclosedOpt, tnfwMassEnclosed, tnfwL]
  have hg : 0 < r / Rs := by positivity
  rw [divOpt_eq hR.ne']
  simp only [Option.bind_eq_bind, Option.bind_some]
  rw [tnfwFOpt_eq hg, sqrtOpt_eq (by positivity)]
  simp only [Option.bind_some]
  rw [divOpt_eq (by positivity)]
  simp only [Option.bind_some]
  rw [logOpt_eq (by positivity), logOpt_eq ht]
  simp only [Option.bind_some]
  rw [divOpt_eq (by positivity), divOpt_eq ht.ne']
  rfl

theorem TNFW.deflectionOpt_eq (L : TNFW) (hL : L.Ok) {x y : ℝ}
    (h : 0 < √((x - L.x0) ^ 2 + (y - L.y0) ^ 2) + L.s) :
    L.deflectionOpt x y = some (L.deflection x y) := by
  have ha := arcsecToRad_pos
  have h1 := hL.d_l
  simp only [TNFW.deflectionOpt, TNFW.deflection, TNFW.physicalDeflection, translateRotate]
  rw [sqrtOpt_eq (by positivity)]
  simp only [Option.bind_eq_bind, Option.bind_some]
  rw [tnfwMassEnclosedOpt_eq _ h hL.Rs hL.tau]
  simp only [Option.bind_some]
  rw [divOpt_eq (by positivity)]
  simp only [Option.bind_some, reducedOpt]
  rw [divOpt_eq hL.d_s.ne']
  rfl


theorem nfw_mass_fn_pos {c : ℝ} (hc : 0 < c) : 0 < log (1 + c) - c / (1 + c) := by
  have h := Real.one_sub_inv_le_log_of_pos (x := 1 + c) (by linarith)
  have h2 := Real.log_lt_sub_one_of_pos (x := (1 + c)⁻¹) (by positivity) (by
    intro h; rw [inv_eq_one] at h; linarith)
  rw [log_inv] at h2
  have : c / (1 + c) = 1 - (1 + c)⁻¹ := by field_simp; ring
  linarith

theorem NFW.deflectionOpt_eq (L : NFW) (hL : L.Ok) {x y : ℝ}
    (h : 0 < √((x - L.x0) ^ 2 + (y - L.y0) ^ 2) + L.s) :
    L.deflectionOpt x y = some (L.deflection x y) := by
  have ha := arcsecToRad_pos
  have h1 := hL.d_l; have h2 := hL.mass; have h3 := hL.c; have h4 := hL.Delta; have h5 := hL.rhoc
  have hrs := L.rs_pos hL
  have e1 : nfwScaleRadiusOpt L.rhoc L.mass L.c L.Delta = some L.rs := by
    simp only [nfwScaleRadiusOpt, NFW.rs, nfwScaleRadius]
    rw [divOpt_eq (by positivity)]
    simp only [Option.bind_eq_bind, Option.bind_some]
    rw [powOpt_eq (by positivity)]
    simp only [Option.bind_some]
    rw [divOpt_eq h3.ne']
  have e2 : nfwScaleDensityOpt L.rhoc L.c L.Delta = some (nfwScaleDensity L.rhoc L.c L.Delta) := by
    simp only [nfwScaleDensityOpt, nfwScaleDensity]
    rw [logOpt_eq (by positivity), divOpt_eq (by positivity)]
    simp only [Option.bind_eq_bind, Option.bind_some]
    rw [divOpt_eq (nfw_mass_fn_pos h3).ne']
  simp only [NFW.deflectionOpt, NFW.deflection, NFW.physicalDeflection, translateRotate]
  rw [sqrtOpt_eq (by positivity), e1, e2]
  simp only [Option.bind_eq_bind, Option.bind_some]
  rw [divOpt_eq hrs.ne']
  simp only [Option.bind_some]
  rw [nfwHOpt_eq (by positivity)]
  simp only [Option.bind_some]
  rw [divOpt_eq (by positivity)]
  simp only [Option.bind_some]
  rw [divOpt_eq h.ne', divOpt_eq h.ne']
  simp only [Option.bind_some, reducedOpt]
  rw [divOpt_eq hL.d_s.ne']
  rfl

theorem sieDeflectionOpt_eq {x0 y0 q phi Rein s x y : ℝ} (hq : 0 < q) (hq1 : q ≤ 1) (hs : 0 ≤ s)
    (h : 0 < s ∨ (x, y) ≠ (x0, y0)) :
    sieDeflectionOpt x0 y0 q phi Rein s x y = some (sieDeflection x0 y0 q phi Rein s x y) := by
  have hQ : 0 < sieQ q ∧ sieQ q < 1 := by
    unfold sieQ
    split_ifs with h1
    · rw [h1]; norm_num
    · exact ⟨hq, lt_of_le_of_ne hq1 h1⟩
  simp only [sieDeflectionOpt, sieDeflection]
  have hp : 0 < s ∨ (translateRotate x y x0 y0 (some phi)).1 ≠ 0 ∨
      (translateRotate x y x0 y0 (some phi)).2 ≠ 0 := by
    refine h.imp_right fun hxy => ?_
    by_contra hc
    push Not at hc
    simp only [translateRotate] at hc
    have h1 := Real.sin_sq_add_cos_sq phi
    apply hxy
    have e1 : x - x0 = 0 := by
      linear_combination (-(x - x0)) * h1 + cos phi * hc.1 - sin phi * hc.2
    have e2 : y - y0 = 0 := by
      linear_combination (-(y - y0)) * h1 + sin phi * hc.1 + cos phi * hc.2
    rw [Prod.mk.injEq]
    exact ⟨by linarith, by linarith⟩
  generalize translateRotate x y x0 y0 (some phi) = p at hp
  generalize sieQ q = Q at hQ
  obtain ⟨h0, h1⟩ := hQ
  have hf : 0 < √(1 - Q ^ 2) := sqrt_pos.2 (by nlinarith)
  have hf1 : √(1 - Q ^ 2) < 1 := by
    rw [sqrt_lt' one_pos]; nlinarith [pow_pos h0 2]
  have hpsi : 0 < √(Q ^ 2 * (p.1 ^ 2 + s ^ 2) + p.2 ^ 2) := by
    apply sqrt_pos.2
    rcases hp with hp | hp | hp
    · positivity
    · have : 0 < p.1 ^ 2 := by positivity
      positivity
    · have : 0 < p.2 ^ 2 := by positivity
      positivity
  have hy : |p.2| ≤ √(Q ^ 2 * (p.1 ^ 2 + s ^ 2) + p.2 ^ 2) := by
    rw [← sqrt_sq_eq_abs]
    exact sqrt_le_sqrt (by nlinarith [mul_nonneg (sq_nonneg Q) (add_nonneg (sq_nonneg p.1) (sq_nonneg s))])
  rw [sqrtOpt_eq (by nlinarith), sqrtOpt_eq h0.le, sqrtOpt_eq (by positivity)]
  simp only [Option.bind_eq_bind, Option.bind_some]
  rw [divOpt_eq hf.ne']
  simp only [Option.bind_some]
  have hd : 0 < √(Q ^ 2 * (p.1 ^ 2 + s ^ 2) + p.2 ^ 2) + Q ^ 2 * s := by positivity
  rw [divOpt_eq (by positivity), divOpt_eq hd.ne']
  simp only [Option.bind_some]
  rw [atanhOpt_eq]
  · rfl
  · rw [abs_div, abs_of_pos hd, div_lt_one hd, abs_mul, abs_of_pos hf]
    have : 0 ≤ Q ^ 2 * s := by positivity
    nlinarith [abs_nonneg p.2]

theorem enclosedDeflectionOpt_eq {Gc2 x0 y0 q phi d_ls d_s s x y : ℝ} (M : ℝ → ℝ) (hq : 0 < q)
    (hd : d_s ≠ 0) (hs : 0 < s) :
    enclosedDeflectionOpt Gc2 x0 y0 q phi d_ls d_s M s x y =
      some (d_ls / d_s * (enclosedDeflection Gc2 x0 y0 q phi M s x y).1,
        d_ls / d_s * (enclosedDeflection Gc2 x0 y0 q phi M s x y).2) := by
  simp only [enclosedDeflectionOpt, enclosedDeflection]
  generalize translateRotate x y x0 y0 (some phi) = p
  rw [divOpt_eq hq.ne']
  simp only [Option.bind_eq_bind, Option.bind_some]
  rw [sqrtOpt_eq (by positivity)]
  simp only [Option.bind_some]
  rw [divOpt_eq (by positivity)]
  simp only [Option.bind_some]
  rw [divOpt_eq (by positivity), divOpt_eq (by positivity)]
  simp only [Option.bind_some, reducedOpt]
  rw [divOpt_eq hd]
  rfl

/-- The profile function of the NFW deflection stays bounded on bounded sets away from zero. -/
theorem nfwH_bounded {r0 : ℝ} (h0 : 0 < r0) : ∃ C, ∀ r ∈ Set.Icc r0 (r0 + 1), |nfwH r| ≤ C := by
  let g1 : ℝ → ℝ := fun x => arccos (1 / max x (1 + 1e-6)) / √((max x (1 + 1e-6)) ^ 2 - 1)
  let g2 : ℝ → ℝ := fun x => arcosh (1 / min x (1 - 1e-6)) / √(1 - (min x (1 - 1e-6)) ^ 2)
  have hm : ∀ x : ℝ, (1 + 1e-6 : ℝ) ≤ max x (1 + 1e-6) := fun x => le_max_right _ _
  have c1 : ContinuousOn g1 (Set.Icc r0 (r0 + 1)) := by
    have hmx : Continuous fun x : ℝ => max x (1 + 1e-6) := by fun_prop
    apply ContinuousOn.div
    · refine (continuous_arccos.comp (continuous_const.div hmx fun x => ?_)).continuousOn
      exact ((by norm_num : (0 : ℝ) < 1 + 1e-6).trans_le (hm x)).ne'
    · exact (continuous_sqrt.comp ((hmx.pow 2).sub continuous_const)).continuousOn
    · intro x _
      have := hm x
      generalize max x (1 + 1e-6) = w at this
      have hw : 1 < w := by norm_num at this; linarith
      exact (sqrt_pos.2 (by nlinarith)).ne'
  have c2 : ContinuousOn g2 (Set.Icc r0 (r0 + 1)) := by
    have hmn : Continuous fun x : ℝ => min x (1 - 1e-6) := by fun_prop
    have hp : ∀ x ∈ Set.Icc r0 (r0 + 1), 0 < min x (1 - 1e-6) ∧ min x (1 - 1e-6) < 1 := by
      intro x hx
      exact ⟨lt_min (h0.trans_le hx.1) (by norm_num),
        (min_le_right _ _).trans_lt (by norm_num)⟩
    apply ContinuousOn.div
    · refine continuousOn_arcosh.comp (continuousOn_const.div hmn.continuousOn fun x hx =>
        (hp x hx).1.ne') fun x hx => ?_
      rw [Set.mem_Ici, le_div_iff₀ (hp x hx).1]
      linarith [(hp x hx).2]
    · exact (continuous_sqrt.comp (continuous_const.sub (hmn.pow 2))).continuousOn
    · intro x hx
      obtain ⟨u, v⟩ := hp x hx
      exact (sqrt_pos.2 (by nlinarith)).ne'
  have c3 : ContinuousOn (fun x : ℝ => log (x / 2)) (Set.Icc r0 (r0 + 1)) :=
    ContinuousOn.log (by fun_prop) fun x hx => by
      have := h0.trans_le hx.1; positivity
  obtain ⟨C1, h1⟩ := isCompact_Icc.exists_bound_of_continuousOn c1
  obtain ⟨C2, h2⟩ := isCompact_Icc.exists_bound_of_continuousOn c2
  obtain ⟨C3, h3⟩ := isCompact_Icc.exists_bound_of_continuousOn c3
  refine ⟨C1 + C2 + C3 + 1, fun r hr => ?_⟩
  have a1 := h1 r hr; have a2 := h2 r hr; have a3 := h3 r hr
  rw [Real.norm_eq_abs] at a1 a2 a3
  have b1 := abs_nonneg (g1 r); have b2 := abs_nonneg (g2 r)
  unfold nfwH
  simp only
  refine (abs_add_le _ _).trans ?_
  split_ifs
  · change |log (r / 2)| + |g1 r| ≤ _; linarith
  · change |log (r / 2)| + |g2 r| ≤ _; linarith
  · rw [abs_one]; linarith

end Caustics

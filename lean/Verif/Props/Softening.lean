import Verif.Lemmas.Softening
import Verif.Lemmas.TNFWMono
import Verif.Props.TNFWMass
import Verif.Props.EPL

/-!
C77: softening removes the singularity of the deflection at the lens.  It does for the isothermal
sphere and ellipsoid, the point mass, the NFW halo and the enclosed-mass lens; not for the truncated
NFW halo, the pseudo-Jaffe lens and the elliptical power law.

Also two statements about the mass a truncated NFW halo encloses (C63) that the failure uses.
-/

open Real Filter Topology

namespace Caustics

/-! ### C63: the enclosed mass of a truncated NFW halo grows -/

/-- The mass reported inside a circle is positive and grows with the radius, for radii off the 1% ring
around the scale radius (or exactly on it). -/
theorem C63_tnfw_grows (L : TNFWLens) (hL : L.Ok) {r r' : ℝ} (hr : 0 < r) (h : r < r')
    (hw : 1e-2 < |r / L.Rs - 1| ∨ r / L.Rs = 1) (hw' : 1e-2 < |r' / L.Rs - 1| ∨ r' / L.Rs = 1) :
    0 < L.massEnclosed r ∧ L.massEnclosed r < L.massEnclosed r' := by
  have hM := C63_tnfw_pos L hL
  have ht := hL.tau; have hR := hL.Rs
  have hk : 0 < L.M0 * (L.tau ^ 2 / (L.tau ^ 2 + 1) ^ 2) := by positivity
  simp only [TNFWLens.massEnclosed]
  rw [tnfwMassEnclosed_eq hw, tnfwMassEnclosed_eq hw']
  refine ⟨mul_pos hk (tnfwMb_pos ht (by positivity)), mul_lt_mul_of_pos_left ?_ hk⟩
  exact tnfwMb_mono ht (Set.mem_Ioi.2 (by positivity))
    (Set.mem_Ioi.2 (div_pos (hr.trans h) hR)) (by gcongr)

/-- With `interpret_m_total_mass=True` no circle contains the whole mass. -/
theorem C63_tnfw_below_total (L : TNFWLens) (hL : L.Ok) (hi : L.interpretTotal = true) {r : ℝ}
    (hr : 0 < r) (hw : 1e-2 < |r / L.Rs - 1| ∨ r / L.Rs = 1) : L.massEnclosed r < L.mass := by
  have hM := C63_tnfw_pos L hL
  have ht := hL.tau; have hR := hL.Rs
  have hn := tnfw_norm_pos ht
  have hk : 0 < L.M0 * (L.tau ^ 2 / (L.tau ^ 2 + 1) ^ 2) := by positivity
  have he : L.M0 * (L.tau ^ 2 / (L.tau ^ 2 + 1) ^ 2)
      * ((L.tau ^ 2 - 1) * log L.tau + π * L.tau - (L.tau ^ 2 + 1)) = L.mass := by
    rw [TNFWLens.M0, if_pos hi, tnfwM0Tot]
    generalize (L.tau ^ 2 - 1) * log L.tau + π * L.tau - (L.tau ^ 2 + 1) = n at *
    field_simp
  simp only [TNFWLens.massEnclosed]
  rw [tnfwMassEnclosed_eq hw, ← he]
  exact mul_lt_mul_of_pos_left (tnfwMb_lt ht (by positivity)) hk

example : 0 < (tnfwEx true).massEnclosed 2 ∧ (tnfwEx true).massEnclosed 2 < 5 := by
  have h : (1e-2 : ℝ) < |2 / (tnfwEx true).Rs - 1| := by norm_num [tnfwEx]
  have h' : (1e-2 : ℝ) < |3 / (tnfwEx true).Rs - 1| := by norm_num [tnfwEx]
  exact ⟨(C63_tnfw_grows _ (tnfwEx_ok true) two_pos (by norm_num : (2 : ℝ) < 3) (Or.inl h)
    (Or.inl h')).1, C63_tnfw_below_total _ (tnfwEx_ok true) rfl two_pos (Or.inl h)⟩

/-! ### C77: softening -/

/-- The full statement: with a positive softening the deflection of every lens class that takes one
is defined everywhere, zero at the centre of the lens and small near it. -/
def C77_statement : Prop :=
  (∀ x0 y0 Rein s, 0 < s → RegularAtCentre (sisDeflectionOpt x0 y0 Rein s) x0 y0) ∧
  (∀ x0 y0 Rein s, 0 < s → RegularAtCentre (pointDeflectionOpt x0 y0 Rein s) x0 y0) ∧
  (∀ x0 y0 q phi Rein s, 0 < q → q ≤ 1 → 0 < s →
    RegularAtCentre (sieDeflectionOpt x0 y0 q phi Rein s) x0 y0) ∧
  (∀ (Gc2 x0 y0 q phi d_ls d_s : ℝ) (M : ℝ → ℝ) (s : ℝ), 0 < q → 0 < d_s → 0 < s →
    ContinuousAt M s →
    RegularAtCentre (enclosedDeflectionOpt Gc2 x0 y0 q phi d_ls d_s M s) x0 y0) ∧
  (∀ L : NFW, L.Ok → 0 < L.s → RegularAtCentre L.deflectionOpt L.x0 L.y0) ∧
  (∀ L : PJaffe, L.Ok → 0 < L.s → RegularAtCentre L.classDeflectionOpt L.x0 L.y0) ∧
  (∀ L : TNFW, L.Ok → 0 < L.s → RegularAtCentre L.deflectionOpt L.x0 L.y0) ∧
  (∀ x0 y0 q phi Rein t s, 0 < q → q ≤ 1 → 0 < Rein → 0 < t → t < 2 → 0 < s →
    RegularAtCentre (eplClassDeflectionOpt x0 y0 q phi Rein t 18 none s) x0 y0)

theorem C77_sis_partial (x0 y0 Rein s : ℝ) (hs : 0 < s) :
    RegularAtCentre (sisDeflectionOpt x0 y0 Rein s) x0 y0 := by
  refine regular_of (sisDeflection x0 y0 Rein s) (fun x y => sisDeflectionOpt_eq (by positivity))
    (by simp [sisDeflection, translateRotate]) ?_
  have hc : Continuous fun p : ℝ × ℝ => sisDeflection x0 y0 Rein s p.1 p.2 := by
    simp only [sisDeflection, translateRotate]
    fun_prop (disch := intros; positivity)
  have := hc.tendsto (x0, y0)
  simpa [sisDeflection, translateRotate] using this

theorem C77_point_partial (x0 y0 Rein s : ℝ) (hs : 0 < s) :
    RegularAtCentre (pointDeflectionOpt x0 y0 Rein s) x0 y0 := by
  refine regular_of (pointDeflection x0 y0 Rein s) (fun x y => pointDeflectionOpt_eq (by positivity))
    (by simp [pointDeflection, translateRotate]) ?_
  have hc : Continuous fun p : ℝ × ℝ => pointDeflection x0 y0 Rein s p.1 p.2 := by
    simp only [pointDeflection, translateRotate]
    fun_prop (disch := intros; positivity)
  have := hc.tendsto (x0, y0)
  simpa [pointDeflection, translateRotate] using this

/-- Positions in the frame of the lens tend to the origin. -/
theorem tendsto_frame (x0 y0 phi : ℝ) :
    Tendsto (fun p : ℝ × ℝ => translateRotate p.1 p.2 x0 y0 (some phi)) (𝓝 (x0, y0)) (𝓝 (0, 0)) := by
  have hc : Continuous fun p : ℝ × ℝ => translateRotate p.1 p.2 x0 y0 (some phi) := by
    simp only [translateRotate]
    fun_prop
  have := hc.tendsto (x0, y0)
  simpa [translateRotate] using this

theorem lens_frame_centre (x0 y0 phi : ℝ) : translateRotate x0 y0 x0 y0 (some phi) = (0, 0) := by
  simp [translateRotate]

theorem tendsto_derotate {f : ℝ × ℝ → ℝ × ℝ} {l : Filter (ℝ × ℝ)} (phi : ℝ)
    (h : Tendsto f l (𝓝 (0, 0))) :
    Tendsto (fun p => derotate (f p).1 (f p).2 (some phi)) l (𝓝 (0, 0)) := by
  have hc : Continuous fun p : ℝ × ℝ => derotate p.1 p.2 (some phi) := by
    simp only [derotate]
    fun_prop
  have := (hc.tendsto (0, 0)).comp h
  simpa [derotate, Function.comp_def] using this

theorem C77_sie_partial (x0 y0 q phi Rein s : ℝ) (hq : 0 < q) (hq1 : q ≤ 1) (hs : 0 < s) :
    RegularAtCentre (sieDeflectionOpt x0 y0 q phi Rein s) x0 y0 := by
  have hQ : 0 < sieQ q := by
    unfold sieQ
    split_ifs with h1
    · rw [h1]; norm_num
    · exact hq
  refine regular_of (sieDeflection x0 y0 q phi Rein s)
    (fun x y => sieDeflectionOpt_eq hq hq1 hs.le (Or.inl hs))
    (by simp [sieDeflection, lens_frame_centre, derotate]) ?_
  simp only [sieDeflection]
  refine tendsto_derotate (f := fun p => (_, _)) phi ?_
  generalize sieQ q = Q at hQ
  have ha : ContinuousAt artanh 0 := (hasDerivAt_artanh (by norm_num)).continuousAt
  have h1 : ContinuousAt (fun p : ℝ × ℝ => √(Q ^ 2 * (p.1 ^ 2 + s ^ 2) + p.2 ^ 2)) (0, 0) := by
    fun_prop
  have h2 : ContinuousAt (fun p : ℝ × ℝ => √(1 - Q ^ 2) * p.1
      / (√(Q ^ 2 * (p.1 ^ 2 + s ^ 2) + p.2 ^ 2) + s)) (0, 0) := by
    refine ContinuousAt.div (by fun_prop) (h1.add continuousAt_const) (by positivity)
  have h3 : ContinuousAt (fun p : ℝ × ℝ => √(1 - Q ^ 2) * p.2
      / (√(Q ^ 2 * (p.1 ^ 2 + s ^ 2) + p.2 ^ 2) + Q ^ 2 * s)) (0, 0) := by
    refine ContinuousAt.div (by fun_prop) (h1.add continuousAt_const) (by positivity)
  have h4 : ContinuousAt (fun p : ℝ × ℝ => (Rein * √Q / √(1 - Q ^ 2) * arctan (√(1 - Q ^ 2) * p.1
      / (√(Q ^ 2 * (p.1 ^ 2 + s ^ 2) + p.2 ^ 2) + s)), Rein * √Q / √(1 - Q ^ 2)
        * artanh (√(1 - Q ^ 2) * p.2 / (√(Q ^ 2 * (p.1 ^ 2 + s ^ 2) + p.2 ^ 2) + Q ^ 2 * s))))
      (0, 0) := by
    refine (continuousAt_const.mul (continuous_arctan.continuousAt.comp h2)).prodMk
      (continuousAt_const.mul (ContinuousAt.comp (g := artanh) ?_ h3))
    simpa using ha
  have := h4.tendsto.comp (tendsto_frame x0 y0 phi)
  simpa [Function.comp_def] using this

theorem C77_enclosed_mass_partial (Gc2 x0 y0 q phi d_ls d_s : ℝ) (M : ℝ → ℝ) (s : ℝ) (hq : 0 < q)
    (hd : 0 < d_s) (hs : 0 < s) (hM : ContinuousAt M s) :
    RegularAtCentre (enclosedDeflectionOpt Gc2 x0 y0 q phi d_ls d_s M s) x0 y0 := by
  refine regular_of _ (fun x y => enclosedDeflectionOpt_eq M hq hd.ne' hs)
    (by simp [enclosedDeflection, lens_frame_centre, derotate]) ?_
  have key : Tendsto (fun p : ℝ × ℝ => enclosedDeflection Gc2 x0 y0 q phi M s p.1 p.2)
      (𝓝 (x0, y0)) (𝓝 (0, 0)) := by
    simp only [enclosedDeflection]
    refine tendsto_derotate (f := fun p => (_, _)) phi ?_
    have h1 : ContinuousAt (fun p : ℝ × ℝ => √(p.1 ^ 2 / q + q * p.2 ^ 2) + s) (0, 0) := by
      fun_prop
    have h2 : ContinuousAt (fun p : ℝ × ℝ => M (√(p.1 ^ 2 / q + q * p.2 ^ 2) + s)) (0, 0) := by
      refine ContinuousAt.comp (g := M) ?_ h1
      simpa using hM
    have h3 : ContinuousAt (fun p : ℝ × ℝ => 4 * Gc2 * M (√(p.1 ^ 2 / q + q * p.2 ^ 2) + s)
        / (√(p.1 ^ 2 / q + q * p.2 ^ 2) + s) ^ 2) (0, 0) :=
      (continuousAt_const.mul h2).div (h1.pow 2) (by positivity)
    have h4 : ContinuousAt (fun p : ℝ × ℝ =>
        (4 * Gc2 * M (√(p.1 ^ 2 / q + q * p.2 ^ 2) + s) / (√(p.1 ^ 2 / q + q * p.2 ^ 2) + s) ^ 2
          * p.1 / (q * (√(p.1 ^ 2 / q + q * p.2 ^ 2) + s)),
        4 * Gc2 * M (√(p.1 ^ 2 / q + q * p.2 ^ 2) + s) / (√(p.1 ^ 2 / q + q * p.2 ^ 2) + s) ^ 2
          * p.2 * q / (√(p.1 ^ 2 / q + q * p.2 ^ 2) + s))) (0, 0) :=
      ((h3.mul continuousAt_fst).div (continuousAt_const.mul h1) (by simp; exact ⟨hq.ne', hs.ne'⟩)).prodMk
        (((h3.mul continuousAt_snd).mul continuousAt_const).div h1 (by positivity))
    have := h4.tendsto.comp (tendsto_frame x0 y0 phi)
    simpa [Function.comp_def] using this
  have h1 := (continuous_fst.tendsto _).comp key
  have h2 := (continuous_snd.tendsto _).comp key
  have := (h1.const_mul (d_ls / d_s)).prodMk_nhds (h2.const_mul (d_ls / d_s))
  simpa [Function.comp_def] using this

theorem C77_nfw_partial (L : NFW) (hL : L.Ok) (hs : 0 < L.s) :
    RegularAtCentre L.deflectionOpt L.x0 L.y0 := by
  have ha := arcsecToRad_pos
  have h1 := hL.d_l
  have hrs := L.rs_pos hL
  refine regular_of L.deflection (fun x y => L.deflectionOpt_eq hL (by positivity))
    (by simp [NFW.deflection, NFW.physicalDeflection, translateRotate]) ?_
  let th : ℝ × ℝ → ℝ := fun p => √((p.1 - L.x0) ^ 2 + (p.2 - L.y0) ^ 2) + L.s
  let r : ℝ × ℝ → ℝ := fun p => L.d_l * th p * arcsecToRad / L.rs
  let K := L.d_ls / L.d_s * (16 * π * L.Gc2 * nfwScaleDensity L.rhoc L.c L.Delta * L.rs ^ 3)
    * radToArcsec
  let g : ℝ × ℝ → ℝ := fun p => K / (L.d_l * th p * arcsecToRad) / th p
  have hth : ∀ p, L.s ≤ th p := fun p => le_add_of_nonneg_left (sqrt_nonneg _)
  have hthc : Continuous th := by
    simp only [th]
    fun_prop
  have hr0 : r (L.x0, L.y0) = L.d_l * L.s * arcsecToRad / L.rs := by simp [r, th]
  have hr0p : 0 < L.d_l * L.s * arcsecToRad / L.rs := by positivity
  have hrc : Continuous r := by
    simp only [r]
    fun_prop
  obtain ⟨C, hC⟩ := nfwH_bounded hr0p
  have hb : ∀ᶠ p in 𝓝 (L.x0, L.y0), |nfwH (r p)| ≤ C := by
    have := hrc.tendsto (L.x0, L.y0)
    rw [hr0] at this
    filter_upwards [this.eventually (gt_mem_nhds (lt_add_one _))] with p hp
    refine hC _ ⟨?_, hp.le⟩
    simp only [r]
    have := hth p
    gcongr
  have hbd : IsBoundedUnder (· ≤ ·) (𝓝 (L.x0, L.y0)) (fun p => ‖nfwH (r p)‖) := ⟨C, hb⟩
  have hgc : Continuous g := by
    simp only [g]
    refine Continuous.div (continuous_const.div (by fun_prop) fun p => ?_) hthc fun p => ?_
    · have := hs.trans_le (hth p); positivity
    · exact (hs.trans_le (hth p)).ne'
  have t1 : Tendsto (fun p : ℝ × ℝ => g p * (p.1 - L.x0)) (𝓝 (L.x0, L.y0)) (𝓝 0) := by
    have : Continuous fun p : ℝ × ℝ => g p * (p.1 - L.x0) := by fun_prop
    simpa using this.tendsto (L.x0, L.y0)
  have t2 : Tendsto (fun p : ℝ × ℝ => g p * (p.2 - L.y0)) (𝓝 (L.x0, L.y0)) (𝓝 0) := by
    have : Continuous fun p : ℝ × ℝ => g p * (p.2 - L.y0) := by fun_prop
    simpa using this.tendsto (L.x0, L.y0)
  have := (isBoundedUnder_le_mul_tendsto_zero hbd t1).prodMk_nhds
    (isBoundedUnder_le_mul_tendsto_zero hbd t2)
  refine this.congr fun p => ?_
  have hp := hs.trans_le (hth p)
  simp only [NFW.deflection, NFW.physicalDeflection, translateRotate]
  change (nfwH (r p) * (g p * (p.1 - L.x0)), nfwH (r p) * (g p * (p.2 - L.y0))) =
    (L.d_ls / L.d_s * (16 * π * L.Gc2 * nfwScaleDensity L.rhoc L.c L.Delta * L.rs ^ 3 * nfwH (r p)
        * radToArcsec / (L.d_l * th p * arcsecToRad) * (p.1 - L.x0) / th p),
      L.d_ls / L.d_s * (16 * π * L.Gc2 * nfwScaleDensity L.rhoc L.c L.Delta * L.rs ^ 3 * nfwH (r p)
        * radToArcsec / (L.d_l * th p * arcsecToRad) * (p.2 - L.y0) / th p))
  simp only [g, K]
  generalize nfwH (r p) = H
  generalize nfwScaleDensity L.rhoc L.c L.Delta = D
  generalize th p = T at *
  ext <;> simp only <;> ring

/-! ### C77: where softening does nothing -/

/-- The pseudo-Jaffe class never uses its softening: whatever it is, the deflection at the centre of
the lens is `0/0`. -/
theorem C77_fails_pseudo_jaffe (L : PJaffe) : L.classDeflectionOpt L.x0 L.y0 = none := by
  simp only [PJaffe.classDeflectionOpt, PJaffe.deflectionOpt, translateRotate, sub_self]
  rw [sqrtOpt_eq (by norm_num)]
  simp [divOpt_zero]

theorem TNFW.deflectionOpt_centre (L : TNFW) (hL : L.Ok) (hs : 0 < L.s) :
    L.deflectionOpt L.x0 L.y0 = some (L.d_ls / L.d_s * (4 * L.Gc2 * radToArcsec *
      (tnfwMassEnclosed L.s L.Rs L.tau L.M0 / (L.s * L.d_l * arcsecToRad))), 0) := by
  rw [L.deflectionOpt_eq hL (by positivity)]
  have h0 : arctan2 0 0 = 0 := Complex.arg_zero
  simp [TNFW.deflection, TNFW.physicalDeflection, translateRotate, h0]

/-- A softened truncated NFW halo deflects its own centre, along the x axis, by what the mass inside
the softening radius deflects at that radius; the deflection is never zero there (softening off the 1%
ring around the scale radius, or equal to it). -/
theorem C77_fails_tnfw (L : TNFWLens) (hL : L.Ok) (hs : 0 < L.s)
    (hw : 1e-2 < |L.s / L.Rs - 1| ∨ L.s / L.Rs = 1) :
    ∃ a, 0 < a ∧ L.toTNFW.deflectionOpt L.x0 L.y0 = some (a, 0) := by
  have hOk : L.toTNFW.Ok := ⟨hL.G, hL.Rs, hL.tau, hL.d_l, hL.d_s, hL.d_ls, hL.sigmacr⟩
  refine ⟨_, ?_, L.toTNFW.deflectionOpt_centre hOk hs⟩
  have hm := (C63_tnfw_grows L hL (r' := L.s + 2 * L.Rs) hs (by linarith [hL.Rs]) hw (Or.inl (by
    have := hL.Rs
    have h : (L.s + 2 * L.Rs) / L.Rs - 1 = L.s / L.Rs + 1 := by field_simp; ring
    rw [h, abs_of_pos (by positivity)]
    have : 0 < L.s / L.Rs := by positivity
    norm_num; linarith))).1
  change 0 < L.d_ls / L.d_s * (4 * L.Gc2 * radToArcsec *
    (L.massEnclosed L.s / (L.s * L.d_l * arcsecToRad)))
  have ha := arcsecToRad_pos
  have hb : 0 < radToArcsec := by unfold radToArcsec; positivity
  have := hL.G; have := hL.d_l; have := hL.d_s; have := hL.d_ls
  positivity

/-- The elliptical power law class hands its softening only to the convergence.  For an isothermal
circular profile the deflection has the size of the Einstein radius arbitrarily close to the centre
and is zero at it. -/
theorem C77_fails_epl (x0 y0 Rein s : ℝ) (hR : 0 < Rein) :
    eplClassDeflectionOpt x0 y0 1 0 Rein 1 18 none s x0 y0 = some (0, 0) ∧
    ∀ δ > 0, eplClassDeflectionOpt x0 y0 1 0 Rein 1 18 none s (x0 + δ) y0 = some (Rein, 0) := by
  have hf : ∀ x y : ℝ, eplDeflection x0 y0 1 0 Rein 1 18 none x y =
      if (⟨x - x0, y - y0⟩ : ℂ) = 0 then .ok (0, 0) else
        .ok (Rein / ‖(⟨x - x0, y - y0⟩ : ℂ)‖ * (x - x0), Rein / ‖(⟨x - x0, y - y0⟩ : ℂ)‖ * (y - y0)) := by
    intro x y
    simp only [eplDeflection, eplFrame, rOmega_eq _ _ _ 18 (by norm_num) none (Or.inl rfl),
      translateRotate]
    have e : ∀ z : ℂ, eplSum z (z / (starRingEnd ℂ) z * ((-((1 - 1) / (1 + 1)) : ℝ) : ℂ)) 1 18 = z := by
      intro z
      simp [eplSum, Finset.sum_range_succ, eplCoef]
    simp only [e]
    simp only [Real.cos_zero, Real.sin_zero, mul_one, mul_zero, add_zero, sub_zero, one_mul]
    split_ifs with h
    · simp [derotate]; rfl
    · have hk : ∀ n : ℝ, 2 / (1 + 1) * (Rein * √1 / n) ^ (1 : ℝ) = Rein / n := by
        intro n; rw [sqrt_one, mul_one, rpow_one]; ring
      simp only [hk]
      change Except.ok (derotate (((Rein / ‖(⟨x - x0, y - y0⟩ : ℂ)‖ : ℝ) : ℂ) * ⟨x - x0, y - y0⟩).re
        (((Rein / ‖(⟨x - x0, y - y0⟩ : ℂ)‖ : ℝ) : ℂ) * ⟨x - x0, y - y0⟩).im (some 0)) = _
      simp only [derotate, Complex.re_ofReal_mul, Complex.im_ofReal_mul, Real.cos_zero,
        Real.sin_zero, mul_one, mul_zero, add_zero, zero_add, sub_zero]
  constructor
  · simp only [eplClassDeflectionOpt, hf, sub_self]
    rw [if_pos (by rfl)]
    rfl
  · intro d hd
    have hz : (⟨x0 + d - x0, y0 - y0⟩ : ℂ) = (d : ℂ) := by
      apply Complex.ext <;> simp
    have hn : (d : ℂ) ≠ 0 := by exact_mod_cast hd.ne'
    simp only [eplClassDeflectionOpt, hf]
    rw [hz, if_neg hn, Complex.norm_real, Real.norm_of_nonneg hd.le]
    simp only [Except.toOption, add_sub_cancel_left, sub_self, mul_zero]
    rw [div_mul_cancel₀ _ hd.ne']

/-! ### C77: without softening -/

theorem PJaffe.deflectionOpt_eq (L : PJaffe) (hL : L.Ok) {x y : ℝ}
    (h : 0 < √((x - L.x0) ^ 2 + (y - L.y0) ^ 2) + L.s) :
    L.deflectionOpt x y = some (L.deflection x y) := by
  have ha := arcsecToRad_pos
  have h1 := hL.Rc; have h2 := hL.Rs; have h3 := hL.d_l; have h4 := hL.d_s; have h5 := hL.d_ls
  have h6 := hL.G
  have hsc : 0 < L.sigmacr := by rw [hL.sigmacr]; positivity
  simp only [PJaffe.deflectionOpt, PJaffe.deflection, translateRotate, pjKappa0]
  rw [sqrtOpt_eq (by positivity)]
  simp only [Option.bind_eq_bind, Option.bind_some]
  rw [divOpt_eq h1.ne', divOpt_eq h2.ne']
  simp only [Option.bind_some]
  rw [sqrtOpt_eq (by positivity), sqrtOpt_eq (by positivity)]
  simp only [Option.bind_some]
  rw [divOpt_eq (by positivity), divOpt_eq (by positivity), divOpt_eq (by positivity)]
  simp only [Option.bind_some]
  rw [divOpt_eq (sub_ne_zero.2 hL.ne.symm)]
  simp only [Option.bind_some]
  rw [divOpt_eq h.ne', divOpt_eq h.ne']
  rfl

/-- Away from the lens nothing leaves the finite numbers, whatever the softening: the deflections are
the ones that the other statements about these lenses use. -/
theorem C77_off_centre {x y : ℝ} :
    (∀ {x0 y0 Rein s}, 0 ≤ s → (x, y) ≠ (x0, y0) →
      sisDeflectionOpt x0 y0 Rein s x y = some (sisDeflection x0 y0 Rein s x y) ∧
      pointDeflectionOpt x0 y0 Rein s x y = some (pointDeflection x0 y0 Rein s x y)) ∧
    (∀ {x0 y0 q phi Rein s}, 0 < q → q ≤ 1 → 0 ≤ s → (x, y) ≠ (x0, y0) →
      sieDeflectionOpt x0 y0 q phi Rein s x y = some (sieDeflection x0 y0 q phi Rein s x y)) ∧
    (∀ L : NFW, L.Ok → 0 ≤ L.s → (x, y) ≠ (L.x0, L.y0) →
      L.deflectionOpt x y = some (L.deflection x y)) ∧
    (∀ L : TNFW, L.Ok → 0 ≤ L.s → (x, y) ≠ (L.x0, L.y0) →
      L.deflectionOpt x y = some (L.deflection x y)) ∧
    (∀ L : PJaffe, L.Ok → (x, y) ≠ (L.x0, L.y0) →
      L.classDeflectionOpt x y = some ({ L with s := 0 }.deflection x y)) := by
  have hp : ∀ {x0 y0 s : ℝ}, 0 ≤ s → (x, y) ≠ (x0, y0) → 0 < √((x - x0) ^ 2 + (y - y0) ^ 2) + s :=
    fun hs h => add_pos_of_pos_of_nonneg (radius_pos (sub_ne_zero_or h)) hs
  refine ⟨fun hs h => ⟨sisDeflectionOpt_eq (hp hs h).ne', pointDeflectionOpt_eq (hp hs h).ne'⟩,
    fun hq hq1 hs h => sieDeflectionOpt_eq hq hq1 hs (Or.inr h),
    fun L hL hs h => L.deflectionOpt_eq hL (hp hs h), fun L hL hs h => L.deflectionOpt_eq hL (hp hs h),
    fun L hL h => PJaffe.deflectionOpt_eq _ ?_ (hp le_rfl h)⟩
  exact ⟨hL.G, hL.Rc, hL.Rs, hL.ne, hL.d_l, hL.d_s, hL.d_ls, hL.sigmacr⟩

/-- Without softening the deflection at the lens itself is `0/0`. -/
theorem C77_unsoftened (x0 y0 q phi Rein : ℝ) (L : NFW) (T : TNFW) (hL : L.s = 0) (hT : T.s = 0) :
    sisDeflectionOpt x0 y0 Rein 0 x0 y0 = none ∧ pointDeflectionOpt x0 y0 Rein 0 x0 y0 = none ∧
    sieDeflectionOpt x0 y0 q phi Rein 0 x0 y0 = none ∧ L.deflectionOpt L.x0 L.y0 = none ∧
    T.deflectionOpt T.x0 T.y0 = none := by
  have h0 : sqrtOpt 0 = some 0 := by rw [sqrtOpt_eq le_rfl, sqrt_zero]
  refine ⟨?_, ?_, ?_, ?_, ?_⟩
  · simp [sisDeflectionOpt, translateRotate, h0, divOpt_zero]
  · simp [pointDeflectionOpt, translateRotate, h0, divOpt_zero]
  · simp [sieDeflectionOpt, lens_frame_centre, h0, divOpt_zero]
  · simp [NFW.deflectionOpt, translateRotate, h0, hL, divOpt_zero]
  · simp [TNFW.deflectionOpt, translateRotate, h0, hT, divOpt_zero]

theorem C77_fails : ¬ C77_statement := by
  rintro ⟨-, -, -, -, -, h, -, -⟩
  obtain ⟨a, ha⟩ := (h ⟨1, 0, 0, 1, 1, 2, 1, 1, 1, 1 / (4 * π * 1 * 1 * 1), 1⟩
    ⟨one_pos, one_pos, two_pos, by norm_num, one_pos, one_pos, one_pos, rfl⟩ one_pos).total 0 0
  exact absurd (C77_fails_pseudo_jaffe _) (by rw [ha]; simp)

/-- A softened isothermal sphere at the origin deflects a ray at (3, 4) by (3, 4) times 2 / (5 + 1). -/
example : sisDeflectionOpt 0 0 2 1 3 4 = some (1, 4 / 3) := by
  have h : √((3 : ℝ) ^ 2 + 4 ^ 2) = 5 := by
    rw [show (3 : ℝ) ^ 2 + 4 ^ 2 = 5 ^ 2 by norm_num, sqrt_sq (by norm_num)]
  rw [sisDeflectionOpt_eq (by positivity)]
  simp only [sisDeflection, translateRotate, sub_zero, h]
  norm_num

example : RegularAtCentre (sisDeflectionOpt 1 2 3 0.01) 1 2 := C77_sis_partial _ _ _ _ (by norm_num)

example : RegularAtCentre (sieDeflectionOpt 0 0 1 0 1 0.1) 0 0 :=
  C77_sie_partial _ _ _ _ _ _ one_pos le_rfl (by norm_num)

example : ∃ a, 0 < a ∧
    ({ tnfwEx true with s := 2 } : TNFWLens).toTNFW.deflectionOpt 0 0 = some (a, 0) :=
  C77_fails_tnfw { tnfwEx true with s := 2 }
    ⟨(tnfwEx_ok true).G, (tnfwEx_ok true).mass, (tnfwEx_ok true).Rs, (tnfwEx_ok true).tau,
      (tnfwEx_ok true).rhoc, (tnfwEx_ok true).d_l, (tnfwEx_ok true).d_s, (tnfwEx_ok true).d_ls,
      (tnfwEx_ok true).sigmacr⟩ two_pos (Or.inl (by norm_num [tnfwEx]))

end Caustics

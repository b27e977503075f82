import Verif.Props.TNFWMass
import Verif.Props.Projection
import Verif.Lemmas.TNFWShape

/-! C83: truncation removes mass from an NFW lens. -/

open Real Filter Topology

namespace Caustics

/-- A strictly increasing function stays below its limit. -/
theorem lt_limit_of_strictMono {f : ℝ → ℝ} {l t : ℝ} (ht : 0 < t) (hm : ∀ s s', 0 < s → s < s' → f s < f s')
    (hl : Tendsto f atTop (𝓝 l)) : f t < l := by
  refine (hm t (t + 1) ht (by linarith)).trans_le (ge_of_tendsto hl ?_)
  filter_upwards [eventually_gt_atTop (t + 1)] with s hs
  exact (hm _ _ (by linarith) hs).le

theorem TNFWLens.withTau_ok {L : TNFWLens} (hL : L.Ok) {t : ℝ} (ht : 0 < t) : (L.withTau t).Ok := by
  obtain ⟨h1, h2, h3, h4, h5, h6, h7, h8, h9⟩ := hL
  constructor <;> first | assumption | exact ht

/-- At a fixed scale mass the enclosed mass is the larger the larger the truncation radius, at every radius. -/
theorem C83_mass (L : TNFWLens) (hL : L.Ok) (hi : L.interpretTotal = false) {t t' : ℝ} (ht : 0 < t) (htt : t < t') {r : ℝ}
    (hr : 0 < r) (hw : 1e-2 < |r / L.Rs - 1| ∨ r / L.Rs = 1) :
    0 < (L.withTau t).massEnclosed r ∧ (L.withTau t).massEnclosed r < (L.withTau t').massEnclosed r := by
  have hM : ∀ s, (L.withTau s).massEnclosed r = (L.withTau t).M0 * tnfwMn s (r / L.Rs) := by
    intro s
    have : (L.withTau s).massEnclosed r = tnfwMassEnclosed r L.Rs s (L.withTau s).M0 := rfl
    rw [this, tnfwMassEnclosed_eq hw, TNFWLens.M0_withTau hi s, TNFWLens.M0_withTau hi t, tnfwMn]
    ring
  have h0 := C63_tnfw_pos _ (TNFWLens.withTau_ok hL ht)
  have hg : 0 < r / L.Rs := div_pos hr hL.Rs
  rw [hM t, hM t']
  refine ⟨mul_pos h0 ?_, mul_lt_mul_of_pos_left (tnfwMn_mono_tau ht htt hg) h0⟩
  have := tnfwMb_pos ht hg
  unfold tnfwMn
  positivity

/-- Likewise the convergence, everywhere on the sky, and it stays below the convergence of the NFW lens of the
same mass and concentration. -/
theorem C83_convergence (L : TNFWLens) (hL : L.Ok) (hi : L.interpretTotal = false) (hs : L.s = 0) {t t' : ℝ} (ht : 0 < t)
    (htt : t < t') (x y : ℝ) (hxy : (x, y) ≠ (L.x0, L.y0))
    (hw : 1e-2 < |√((x - L.x0) ^ 2 + (y - L.y0) ^ 2) / L.Rs - 1|) :
    ∃ k, L.untruncated.convergence x y = some k ∧ (L.withTau t).toTNFW.convergence x y < (L.withTau t').toTNFW.convergence x y ∧
      (L.withTau t').toTNFW.convergence x y < k := by
  have hmono : ∀ s s', 0 < s → s < s' → (L.withTau s).toTNFW.convergence x y < (L.withTau s').toTNFW.convergence x y := by
    intro s s' h0 h
    have hR := radius_pos (sub_ne_zero_or hxy)
    have hr : 0 < (L.withTau s).toTNFW.radius x y := div_pos hR hL.Rs
    have ok : ∀ u, 0 < u → (L.withTau u).toTNFW.Ok := fun u hu =>
      ⟨hL.G, hL.Rs, hu, hL.d_l, hL.d_s, hL.d_ls, hL.sigmacr⟩
    rw [(L.withTau s).toTNFW.convergence_eq (ok s h0) hs x y hxy (.inl hw),
      (L.withTau s').toTNFW.convergence_eq (ok s' (h0.trans h)) hs x y hxy (.inl hw)]
    have hM : ∀ u, (L.withTau u).toTNFW.M0 = (L.withTau s).M0 := fun u => by
      change (L.withTau u).M0 = _
      rw [TNFWLens.M0_withTau hi u, TNFWLens.M0_withTau hi s]
    have h1 := C63_tnfw_pos _ (TNFWLens.withTau_ok hL h0)
    have hA : 0 < (L.withTau s).M0 / (2 * π * (L.Rs * L.d_l * arcsecToRad) ^ 2) / L.sigmacr := by
      have := hL.G; have := hL.d_l; have := hL.d_s; have := hL.d_ls; have := pi_pos; have := hL.Rs
      have := arcsecToRad_pos
      rw [hL.sigmacr]
      positivity
    rw [hM s, hM s']
    exact mul_lt_mul_of_pos_left (tnfwK_mono_tau hr h0 h) hA
  obtain ⟨k, hk, hlim⟩ := C64_convergence L hL hi hs x y hxy hw
  exact ⟨k, hk, hmono t t' ht htt, lt_limit_of_strictMono
    (f := fun s => (L.withTau s).toTNFW.convergence x y) (ht.trans htt) hmono hlim⟩

/-- The pull of a truncated NFW lens is proportional to the mass inside. -/
theorem tnfw_pull (L : TNFWLens) (hs : L.s = 0) (x y : ℝ) (hxy : (x, y) ≠ (L.x0, L.y0)) (s : ℝ) :
    (((L.withTau s).toTNFW.deflection x y).1 * (x - L.x0) + ((L.withTau s).toTNFW.deflection x y).2 * (y - L.y0))
        / √((x - L.x0) ^ 2 + (y - L.y0) ^ 2)
      = L.d_ls / L.d_s * (4 * L.Gc2 * radToArcsec) / (L.d_l * arcsecToRad)
        * ((L.withTau s).massEnclosed (√((x - L.x0) ^ 2 + (y - L.y0) ^ 2)) / √((x - L.x0) ^ 2 + (y - L.y0) ^ 2)) := by
  have hR := radius_pos (sub_ne_zero_or hxy)
  have hsq : √((x - L.x0) ^ 2 + (y - L.y0) ^ 2) ^ 2 = (x - L.x0) ^ 2 + (y - L.y0) ^ 2 := sq_sqrt (by positivity)
  have e : (L.withTau s).toTNFW.deflection x y =
      (L.d_ls / L.d_s * (4 * L.Gc2 * radToArcsec) / (L.d_l * arcsecToRad)
        * (tnfwMassEnclosed (√((x - L.x0) ^ 2 + (y - L.y0) ^ 2) / L.Rs) 1 s (L.withTau s).M0
          / √((x - L.x0) ^ 2 + (y - L.y0) ^ 2)) * (x - L.x0) / √((x - L.x0) ^ 2 + (y - L.y0) ^ 2),
       L.d_ls / L.d_s * (4 * L.Gc2 * radToArcsec) / (L.d_l * arcsecToRad)
        * (tnfwMassEnclosed (√((x - L.x0) ^ 2 + (y - L.y0) ^ 2) / L.Rs) 1 s (L.withTau s).M0
          / √((x - L.x0) ^ 2 + (y - L.y0) ^ 2)) * (y - L.y0) / √((x - L.x0) ^ 2 + (y - L.y0) ^ 2)) :=
    TNFW.deflection_eq (L.withTau s).toTNFW hs hxy
  have hm : (L.withTau s).massEnclosed (√((x - L.x0) ^ 2 + (y - L.y0) ^ 2))
      = tnfwMassEnclosed (√((x - L.x0) ^ 2 + (y - L.y0) ^ 2) / L.Rs) 1 s (L.withTau s).M0 :=
    tnfwMass_scale _ L.Rs _ _
  rw [e, hm]
  simp only
  generalize tnfwMassEnclosed _ _ _ _ = m
  generalize √((x - L.x0) ^ 2 + (y - L.y0) ^ 2) = R at *
  generalize L.d_ls / L.d_s * (4 * L.Gc2 * radToArcsec) / (L.d_l * arcsecToRad) = C at *
  field_simp
  rw [hsq]

/-- Likewise the deflection towards the centre. -/
theorem C83_deflection (L : TNFWLens) (hL : L.Ok) (hi : L.interpretTotal = false) (hs : L.s = 0) {t t' : ℝ} (ht : 0 < t)
    (htt : t < t') (x y : ℝ) (hxy : (x, y) ≠ (L.x0, L.y0))
    (hw : 1e-2 < |√((x - L.x0) ^ 2 + (y - L.y0) ^ 2) / L.Rs - 1|) :
    let pull := fun a : ℝ × ℝ => (a.1 * (x - L.x0) + a.2 * (y - L.y0)) / √((x - L.x0) ^ 2 + (y - L.y0) ^ 2)
    0 < pull ((L.withTau t).toTNFW.deflection x y) ∧
    pull ((L.withTau t).toTNFW.deflection x y) < pull ((L.withTau t').toTNFW.deflection x y) ∧
    pull ((L.withTau t').toTNFW.deflection x y) < pull (L.untruncated.deflection x y) := by
  intro pull
  have hR := radius_pos (sub_ne_zero_or hxy)
  have hC : 0 < L.d_ls / L.d_s * (4 * L.Gc2 * radToArcsec) / (L.d_l * arcsecToRad) := by
    have := hL.G; have := hL.d_l; have := hL.d_s; have := hL.d_ls
    have := arcsecToRad_pos
    have : 0 < radToArcsec := by unfold radToArcsec; positivity
    positivity
  have hp : ∀ s, pull ((L.withTau s).toTNFW.deflection x y) = _ := tnfw_pull L hs x y hxy
  have hmono : ∀ s s', 0 < s → s < s' →
      pull ((L.withTau s).toTNFW.deflection x y) < pull ((L.withTau s').toTNFW.deflection x y) := by
    intro s s' h0 h
    rw [hp, hp]
    exact mul_lt_mul_of_pos_left (div_lt_div_of_pos_right (C83_mass L hL hi h0 h hR (.inl hw)).2 hR) hC
  refine ⟨?_, hmono t t' ht htt, lt_limit_of_strictMono
    (f := fun s => pull ((L.withTau s).toTNFW.deflection x y)) (ht.trans htt) hmono ?_⟩
  · rw [hp]
    exact mul_pos hC (div_pos (C83_mass L hL hi ht htt hR (.inl hw)).1 hR)
  · have h := C64_deflection L hL hi hs x y hxy hw
    have h1 : Continuous pull := by fun_prop
    exact (h1.tendsto _).comp h

/-- At a fixed total mass it is the other way round: a larger truncation radius moves mass outwards, so that less is
inside any radius. -/
theorem C83_mass_total (L : TNFWLens) (hL : L.Ok) (hi : L.interpretTotal = true) {t t' : ℝ} (ht : 0 < t) (htt : t < t')
    {r : ℝ} (hr : 0 < r) (hw : 1e-2 < |r / L.Rs - 1| ∨ r / L.Rs = 1) :
    0 < (L.withTau t').massEnclosed r ∧ (L.withTau t').massEnclosed r < (L.withTau t).massEnclosed r ∧
      (L.withTau t).massEnclosed r < L.mass := by
  have hM : ∀ s, (L.withTau s).massEnclosed r = L.mass * (tnfwMn s (r / L.Rs) / tnfwTot s) := by
    intro s
    have h1 : (L.withTau s).massEnclosed r = tnfwMassEnclosed r L.Rs s (L.withTau s).M0 := rfl
    have h2 : (L.withTau s).M0 = tnfwM0Tot L.mass s := by
      rw [TNFWLens.M0, if_pos (by simp [TNFWLens.withTau, hi])]
      rfl
    rw [h1, tnfwMassEnclosed_eq hw, h2, tnfwM0Tot_eq, tnfwMn]
    ring
  have hm := hL.mass
  have hg : 0 < r / L.Rs := div_pos hr hL.Rs
  have p : ∀ s, 0 < s → 0 < tnfwMn s (r / L.Rs) := fun s hs => by
    have := tnfwMb_pos hs hg
    unfold tnfwMn
    positivity
  have q : tnfwMn t (r / L.Rs) < tnfwTot t := by
    unfold tnfwMn tnfwTot
    exact mul_lt_mul_of_pos_left (tnfwMb_lt ht hg) (by positivity)
  rw [hM t, hM t']
  refine ⟨mul_pos hm (div_pos (p _ (ht.trans htt)) (tnfwTot_pos (ht.trans htt))),
    mul_lt_mul_of_pos_left (tnfw_fraction_anti ht htt hg) hm, ?_⟩
  exact mul_lt_of_lt_one_right hm ((div_lt_one (tnfwTot_pos ht)).2 q)

/-- and the deflection is smaller. -/
theorem C83_deflection_total (L : TNFWLens) (hL : L.Ok) (hi : L.interpretTotal = true) (hs : L.s = 0) {t t' : ℝ} (ht : 0 < t)
    (htt : t < t') (x y : ℝ) (hxy : (x, y) ≠ (L.x0, L.y0))
    (hw : 1e-2 < |√((x - L.x0) ^ 2 + (y - L.y0) ^ 2) / L.Rs - 1| ∨ √((x - L.x0) ^ 2 + (y - L.y0) ^ 2) / L.Rs = 1) :
    let pull := fun a : ℝ × ℝ => (a.1 * (x - L.x0) + a.2 * (y - L.y0)) / √((x - L.x0) ^ 2 + (y - L.y0) ^ 2)
    0 < pull ((L.withTau t').toTNFW.deflection x y) ∧
    pull ((L.withTau t').toTNFW.deflection x y) < pull ((L.withTau t).toTNFW.deflection x y) := by
  intro pull
  have hR := radius_pos (sub_ne_zero_or hxy)
  have hC : 0 < L.d_ls / L.d_s * (4 * L.Gc2 * radToArcsec) / (L.d_l * arcsecToRad) := by
    have := hL.G; have := hL.d_l; have := hL.d_s; have := hL.d_ls
    have := arcsecToRad_pos
    have : 0 < radToArcsec := by unfold radToArcsec; positivity
    positivity
  have hp : ∀ s, pull ((L.withTau s).toTNFW.deflection x y) = _ := tnfw_pull L hs x y hxy
  obtain ⟨h1, h2, -⟩ := C83_mass_total L hL hi ht htt hR hw
  rw [hp, hp]
  exact ⟨mul_pos hC (div_pos h1 hR), mul_lt_mul_of_pos_left (div_lt_div_of_pos_right h2 hR) hC⟩

/-- A lens with both readings of its mass. -/
noncomputable def truncSample (total : Bool) : TNFWLens :=
  { interpretTotal := total, Gc2 := 1, x0 := 0, y0 := 0, mass := 3, Rs := 1, tau := 2, s := 0, rhoc := 1, d_l := 1, d_s := 1,
    d_ls := 1, sigmacr := 1 / (4 * π) }

theorem truncSample_ok (total : Bool) : (truncSample total).Ok :=
  ⟨one_pos, three_pos, one_pos, two_pos, one_pos, one_pos, one_pos, one_pos, by norm_num [truncSample]⟩

/-- Half the scale radius, truncated at 2 and at 5 scale radii: more mass at 5 if the scale mass is fixed, less if the
total mass is. -/
example : ((truncSample false).withTau 2).massEnclosed (1 / 2) < ((truncSample false).withTau 5).massEnclosed (1 / 2) ∧
    ((truncSample true).withTau 5).massEnclosed (1 / 2) < ((truncSample true).withTau 2).massEnclosed (1 / 2) :=
  ⟨(C83_mass _ (truncSample_ok _) rfl two_pos (by norm_num) (by norm_num) (.inl (by norm_num [truncSample]))).2,
    (C83_mass_total _ (truncSample_ok _) rfl two_pos (by norm_num) (by norm_num) (.inl (by norm_num [truncSample]))).2.1⟩

theorem truncSample_radius (b : Bool) : √((3 - (truncSample b).x0) ^ 2 + (0 - (truncSample b).y0) ^ 2) / (truncSample b).Rs = 3 := by
  simp only [truncSample]
  rw [show ((3 : ℝ) - 0) ^ 2 + (0 - 0) ^ 2 = 3 ^ 2 by norm_num, sqrt_sq (by norm_num)]
  norm_num

example := C83_convergence _ (truncSample_ok false) rfl rfl two_pos (by norm_num : (2 : ℝ) < 5) 3 0
  (by norm_num [truncSample]) (by rw [truncSample_radius]; norm_num)

example := C83_deflection _ (truncSample_ok false) rfl rfl two_pos (by norm_num : (2 : ℝ) < 5) 3 0
  (by norm_num [truncSample]) (by rw [truncSample_radius]; norm_num)

example := C83_deflection_total _ (truncSample_ok true) rfl rfl two_pos (by norm_num : (2 : ℝ) < 5) 3 0
  (by norm_num [truncSample]) (.inl (by rw [truncSample_radius]; norm_num))

end Caustics

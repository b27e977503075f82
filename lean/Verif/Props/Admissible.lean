import Verif.Lemmas.RingBounds
import Verif.Props.LensHalo
import Verif.Props.SIE
import Verif.Model.EPL
import Mathlib.Analysis.SpecialFunctions.Log.Deriv
import Mathlib.Analysis.Complex.ExponentialBounds

/-!
Positivity and monotonicity of the analytic profiles, and the NFW convergence around its scale
radius.
-/

open Real

namespace Caustics

/-- The convergence `k` is positive away from the centre `(x0, y0)` and strictly decreases along every
ray from it. -/
def Admissible (k : ℝ → ℝ → ℝ) (x0 y0 : ℝ) : Prop :=
  ∀ u v : ℝ, (u, v) ≠ (0, 0) → ∀ a b : ℝ, 0 < a → a < b →
    0 < k (x0 + b * u) (y0 + b * v) ∧ k (x0 + b * u) (y0 + b * v) < k (x0 + a * u) (y0 + a * v)

theorem ray_sq {u v a b : ℝ} (h : (u, v) ≠ (0, 0)) (ha : 0 < a) (hab : a < b) :
    0 < (a * u) ^ 2 + (a * v) ^ 2 ∧ (a * u) ^ 2 + (a * v) ^ 2 < (b * u) ^ 2 + (b * v) ^ 2 := by
  have h0 : 0 < u ^ 2 + v ^ 2 := by
    by_contra hc
    have h1 : u = 0 := by nlinarith [sq_nonneg u, sq_nonneg v]
    have h2 : v = 0 := by nlinarith [sq_nonneg u, sq_nonneg v]
    exact h (by rw [h1, h2])
  have h2 : a ^ 2 < b ^ 2 := by nlinarith
  constructor
  · have : 0 < a ^ 2 * (u ^ 2 + v ^ 2) := by positivity
    nlinarith
  · nlinarith [mul_lt_mul_of_pos_right h2 h0]

theorem C54_sis (x0 y0 Rein s : ℝ) (hR : 0 < Rein) (hs : 0 ≤ s) :
    Admissible (sisConvergence x0 y0 Rein s) x0 y0 := by
  intro u v huv a b ha hab
  obtain ⟨h1, h2⟩ := ray_sq huv ha hab
  simp only [sisConvergence, translateRotate, add_sub_cancel_left]
  have p1 := sqrt_pos.mpr h1
  have p2 := sqrt_lt_sqrt h1.le h2
  refine ⟨div_pos (by positivity) (by linarith), ?_⟩
  exact div_lt_div_of_pos_left (by positivity) (by linarith) (by linarith)

/-- An elliptical squared radius grows along rays. -/
theorem ray_frame {q u v a b : ℝ} (phi x0 y0 : ℝ) (hq : 0 < q) (h : (u, v) ≠ (0, 0)) (ha : 0 < a)
    (hab : a < b) :
    let p := translateRotate (x0 + a * u) (y0 + a * v) x0 y0 (some phi)
    let r := translateRotate (x0 + b * u) (y0 + b * v) x0 y0 (some phi)
    0 < q ^ 2 * p.1 ^ 2 + p.2 ^ 2 ∧ q ^ 2 * p.1 ^ 2 + p.2 ^ 2 < q ^ 2 * r.1 ^ 2 + r.2 ^ 2 := by
  intro p r
  have hne : (u * cos phi + v * sin phi, v * cos phi - u * sin phi) ≠ (0, 0) := by
    intro hc
    have c1 := (Prod.ext_iff.mp hc).1
    have c2 := (Prod.ext_iff.mp hc).2
    simp only at c1 c2
    have cs := sin_sq_add_cos_sq phi
    apply h
    have e1 : u = 0 := by linear_combination cos phi * c1 - sin phi * c2 - u * cs
    have e2 : v = 0 := by linear_combination sin phi * c1 + cos phi * c2 - v * cs
    rw [e1, e2]
  have hne' : (q * (u * cos phi + v * sin phi), v * cos phi - u * sin phi) ≠ (0, 0) := by
    intro hc
    have c1 := (Prod.ext_iff.mp hc).1
    have c2 := (Prod.ext_iff.mp hc).2
    simp only at c1 c2
    rcases mul_eq_zero.mp c1 with h | h
    · exact hq.ne' h
    · exact hne (by rw [h, c2])
  have := ray_sq hne' ha hab
  have e1 : q ^ 2 * p.1 ^ 2 + p.2 ^ 2 = (a * (q * (u * cos phi + v * sin phi))) ^ 2
      + (a * (v * cos phi - u * sin phi)) ^ 2 := by
    simp only [p, translateRotate]; ring
  have e2 : q ^ 2 * r.1 ^ 2 + r.2 ^ 2 = (b * (q * (u * cos phi + v * sin phi))) ^ 2
      + (b * (v * cos phi - u * sin phi)) ^ 2 := by
    simp only [r, translateRotate]; ring
  rw [e1, e2]
  exact this

theorem C54_sie (x0 y0 q phi Rein s : ℝ) (hq : 0 < q) (hR : 0 < Rein) :
    Admissible (sieConvergence x0 y0 q phi Rein s) x0 y0 := by
  intro u v huv a b ha hab
  obtain ⟨h1, h2⟩ := ray_frame phi x0 y0 hq huv ha hab
  simp only [sieConvergence]
  have hsq := sqrt_pos.mpr hq
  have hs2 : 0 ≤ q ^ 2 * s ^ 2 := by positivity
  have l1 : 0 < √(q ^ 2 * ((translateRotate (x0 + a * u) (y0 + a * v) x0 y0 (some phi)).1 ^ 2 + s ^ 2)
      + (translateRotate (x0 + a * u) (y0 + a * v) x0 y0 (some phi)).2 ^ 2) :=
    sqrt_pos.mpr (by linarith)
  have l2 := sqrt_lt_sqrt (sqrt_pos.mp l1).le (show
    q ^ 2 * ((translateRotate (x0 + a * u) (y0 + a * v) x0 y0 (some phi)).1 ^ 2 + s ^ 2)
      + (translateRotate (x0 + a * u) (y0 + a * v) x0 y0 (some phi)).2 ^ 2 <
    q ^ 2 * ((translateRotate (x0 + b * u) (y0 + b * v) x0 y0 (some phi)).1 ^ 2 + s ^ 2)
      + (translateRotate (x0 + b * u) (y0 + b * v) x0 y0 (some phi)).2 ^ 2 by linarith)
  exact ⟨div_pos (by positivity) (l1.trans l2), div_lt_div_of_pos_left (by positivity) l1 l2⟩

theorem C54_epl (x0 y0 q phi Rein t s : ℝ) (hq : 0 < q) (hR : 0 < Rein) (ht : 0 < t) (ht2 : t < 2) :
    Admissible (eplConvergence x0 y0 q phi Rein t s) x0 y0 := by
  intro u v huv a b ha hab
  obtain ⟨h1, h2⟩ := ray_frame phi x0 y0 hq huv ha hab
  simp only [eplConvergence]
  have hsq := sqrt_pos.mpr hq
  have hs2 : 0 ≤ s ^ 2 := by positivity
  have l1 : 0 < √(q ^ 2 * (translateRotate (x0 + a * u) (y0 + a * v) x0 y0 (some phi)).1 ^ 2
      + (translateRotate (x0 + a * u) (y0 + a * v) x0 y0 (some phi)).2 ^ 2 + s ^ 2) :=
    sqrt_pos.mpr (by linarith)
  have l2 := sqrt_lt_sqrt (sqrt_pos.mp l1).le (show
    q ^ 2 * (translateRotate (x0 + a * u) (y0 + a * v) x0 y0 (some phi)).1 ^ 2
      + (translateRotate (x0 + a * u) (y0 + a * v) x0 y0 (some phi)).2 ^ 2 + s ^ 2 <
    q ^ 2 * (translateRotate (x0 + b * u) (y0 + b * v) x0 y0 (some phi)).1 ^ 2
      + (translateRotate (x0 + b * u) (y0 + b * v) x0 y0 (some phi)).2 ^ 2 + s ^ 2 by linarith)
  have h2t : 0 < (2 - t) / 2 := by linarith
  have hb : 0 < Rein * √q := by positivity
  have d2 := div_pos hb (l1.trans l2)
  have d1 := div_lt_div_of_pos_left hb l1 l2
  exact ⟨mul_pos h2t (rpow_pos_of_pos d2 _),
    mul_lt_mul_of_pos_left (rpow_lt_rpow d2.le d1 ht) h2t⟩

/-! ### Pseudo-Jaffe -/

theorem pj_diff {a b u : ℝ} (ha : 0 < a) (hb : 0 < b) (hab : a ≠ b) (hu : 0 ≤ u) :
    1 / (b - a) * (1 / √(a ^ 2 + u) - 1 / √(b ^ 2 + u))
      = (a + b) / (√(a ^ 2 + u) * √(b ^ 2 + u) * (√(a ^ 2 + u) + √(b ^ 2 + u))) := by
  have p : 0 < √(a ^ 2 + u) := sqrt_pos.mpr (by positivity)
  have q : 0 < √(b ^ 2 + u) := sqrt_pos.mpr (by positivity)
  have ps := sq_sqrt (show 0 ≤ a ^ 2 + u by positivity)
  have qs := sq_sqrt (show 0 ≤ b ^ 2 + u by positivity)
  have hne : b - a ≠ 0 := sub_ne_zero.mpr hab.symm
  generalize √(a ^ 2 + u) = P at *
  generalize √(b ^ 2 + u) = Q at *
  field_simp
  linear_combination qs - ps

theorem pjKappa0_pos (L : PJaffe) (hL : L.Ok) (hm : 0 < L.mass) :
    0 < pjKappa0 L.mass L.Rc L.Rs L.d_l L.sigmacr := by
  have := hL.G; have := hL.d_l; have := hL.d_s; have := hL.d_ls; have := hL.Rc; have := hL.Rs
  have := arcsecToRad_pos
  have := pi_pos
  rw [pjKappa0, hL.sigmacr]
  positivity

theorem C54_pseudo_jaffe (L : PJaffe) (hL : L.Ok) (hm : 0 < L.mass) (hs : 0 ≤ L.s) :
    Admissible L.convergence L.x0 L.y0 := by
  intro u v huv a b ha hab
  obtain ⟨h1, h2⟩ := ray_sq huv ha hab
  have hk := pjKappa0_pos L hL hm
  have hRc := hL.Rc; have hRs := hL.Rs
  simp only [PJaffe.convergence, translateRotate, add_sub_cancel_left]
  have form : ∀ w : ℝ, 0 ≤ w → pjKappa0 L.mass L.Rc L.Rs L.d_l L.sigmacr * L.Rc * L.Rs / (L.Rs - L.Rc)
      * (1 / √(L.Rc ^ 2 + w) - 1 / √(L.Rs ^ 2 + w))
      = pjKappa0 L.mass L.Rc L.Rs L.d_l L.sigmacr * L.Rc * L.Rs * (L.Rc + L.Rs)
        / (√(L.Rc ^ 2 + w) * √(L.Rs ^ 2 + w) * (√(L.Rc ^ 2 + w) + √(L.Rs ^ 2 + w))) := by
    intro w hw
    rw [mul_div_assoc _ (L.Rc + L.Rs), ← pj_diff hRc hRs hL.ne hw]
    ring
  have s1 : 0 ≤ (a * u) ^ 2 + (a * v) ^ 2 + L.s := by linarith
  have s2 : (a * u) ^ 2 + (a * v) ^ 2 + L.s < (b * u) ^ 2 + (b * v) ^ 2 + L.s := by linarith
  generalize (a * u) ^ 2 + (a * v) ^ 2 + L.s = A at *
  generalize (b * u) ^ 2 + (b * v) ^ 2 + L.s = B at *
  rw [form A s1, form B (s1.trans s2.le)]
  have c1 : √(L.Rc ^ 2 + A) < √(L.Rc ^ 2 + B) := sqrt_lt_sqrt (by positivity) (by linarith)
  have c2 : √(L.Rs ^ 2 + A) < √(L.Rs ^ 2 + B) := sqrt_lt_sqrt (by positivity) (by linarith)
  have c3 : 0 < √(L.Rc ^ 2 + A) := sqrt_pos.mpr (by positivity)
  have c4 : 0 < √(L.Rs ^ 2 + A) := sqrt_pos.mpr (by positivity)
  have c5 := c3.trans c1
  have c6 := c4.trans c2
  refine ⟨by positivity, div_lt_div_of_pos_left (by positivity) (by positivity) ?_⟩
  exact mul_lt_mul'' (mul_lt_mul'' c1 c2 c3.le c4.le) (by linarith) (by positivity) (by positivity)

/-- The mass enclosed by a pseudo-Jaffe lens grows from 0 at the centre and stays below the total. -/
theorem C54_pseudo_jaffe_mass_grows (mass Rc Rs : ℝ) (hm : 0 < mass) (hRc : 0 < Rc) (hRs : 0 < Rs)
    (hne : Rc ≠ Rs) (r r' : ℝ) (hr : 0 ≤ r) (h : r < r') :
    pjMassEnclosed 0 mass Rc Rs 0 = 0 ∧
    pjMassEnclosed r mass Rc Rs 0 < pjMassEnclosed r' mass Rc Rs 0 ∧
    pjMassEnclosed r' mass Rc Rs 0 < mass := by
  have hd : Rs - Rc ≠ 0 := sub_ne_zero.mpr hne.symm
  have form : ∀ w : ℝ, pjMassEnclosed w mass Rc Rs 0
      = mass * (1 - (Rc + Rs) / (√(Rc ^ 2 + w ^ 2) + √(Rs ^ 2 + w ^ 2))) := by
    intro w
    have p : 0 < √(Rc ^ 2 + w ^ 2) := sqrt_pos.mpr (by positivity)
    have q : 0 < √(Rs ^ 2 + w ^ 2) := sqrt_pos.mpr (by positivity)
    have ps := sq_sqrt (show 0 ≤ Rc ^ 2 + w ^ 2 by positivity)
    have qs := sq_sqrt (show 0 ≤ Rs ^ 2 + w ^ 2 by positivity)
    simp only [pjMassEnclosed, add_zero]
    generalize √(Rc ^ 2 + w ^ 2) = P at *
    generalize √(Rs ^ 2 + w ^ 2) = Q at *
    have : P + Q ≠ 0 := by positivity
    field_simp
    linear_combination ps - qs
  refine ⟨?_, ?_, ?_⟩
  · rw [form]
    have : Rc + Rs ≠ 0 := by positivity
    rw [zero_pow two_ne_zero, add_zero, add_zero, sqrt_sq hRc.le, sqrt_sq hRs.le, div_self this]
    ring
  · rw [form, form]
    have c1 : √(Rc ^ 2 + r ^ 2) < √(Rc ^ 2 + r' ^ 2) := sqrt_lt_sqrt (by positivity) (by nlinarith)
    have c2 : √(Rs ^ 2 + r ^ 2) < √(Rs ^ 2 + r' ^ 2) := sqrt_lt_sqrt (by positivity) (by nlinarith)
    have c3 : 0 < √(Rc ^ 2 + r ^ 2) := sqrt_pos.mpr (by positivity)
    have c4 : 0 < √(Rs ^ 2 + r ^ 2) := sqrt_pos.mpr (by positivity)
    have := div_lt_div_of_pos_left (show 0 < Rc + Rs by positivity) (by positivity)
      (show √(Rc ^ 2 + r ^ 2) + √(Rs ^ 2 + r ^ 2) < √(Rc ^ 2 + r' ^ 2) + √(Rs ^ 2 + r' ^ 2) by linarith)
    exact mul_lt_mul_of_pos_left (by linarith) hm
  · rw [form]
    have c3 : 0 < √(Rc ^ 2 + r' ^ 2) := sqrt_pos.mpr (by positivity)
    have c4 : 0 < √(Rs ^ 2 + r' ^ 2) := sqrt_pos.mpr (by positivity)
    have : 0 < (Rc + Rs) / (√(Rc ^ 2 + r' ^ 2) + √(Rs ^ 2 + r' ^ 2)) := by positivity
    nlinarith

/-! ### NFW -/

theorem nfwScaleDensity_pos {rhoc c Delta : ℝ} (h1 : 0 < rhoc) (h2 : 0 < c) (h3 : 0 < Delta) :
    0 < nfwScaleDensity rhoc c Delta := by
  have hlog : c / (1 + c) < log (1 + c) := by
    have := log_lt_sub_one_of_pos (x := (1 + c)⁻¹) (by positivity) (by
      intro h; rw [inv_eq_one] at h; linarith)
    rw [log_inv] at this
    have e : c / (1 + c) = 1 - (1 + c)⁻¹ := by field_simp; ring
    linarith
  unfold nfwScaleDensity
  have : 0 < log (1 + c) - c / (1 + c) := by linarith
  positivity

theorem NFW.kappaS_pos {L : NFW} (h : L.Ok) :
    0 < nfwConvergenceS L.sigmacr L.rhoc L.mass L.c L.Delta := by
  have h1 := L.rs_pos h
  have h2 := nfwScaleDensity_pos h.rhoc h.c h.Delta
  have := h.G; have := h.d_l; have := h.d_s; have := h.d_ls
  have := pi_pos
  rw [nfwConvergenceS, h.sigmacr]
  change 0 < L.rs * _ / _
  positivity

theorem NFW.convergence_eq (L : NFW) (h : L.Ok) (hs : L.s = 0) {x y : ℝ}
    (hxy : (x, y) ≠ (L.x0, L.y0)) (hw : 1e-6 < |L.radius x y - 1|) :
    L.convergence x y = some (2 * nfwConvergenceS L.sigmacr L.rhoc L.mass L.c L.Delta
      * ringK (L.radius x y)) := by
  have hr := L.radius_pos h hxy
  have h1 := ne_one_of_window (by norm_num) hw
  have hne : L.radius x y ^ 2 - 1 ≠ 0 := by
    intro h
    apply h1
    have : (L.radius x y - 1) * (L.radius x y + 1) = 0 := by linear_combination h
    rcases mul_eq_zero.mp this with h | h <;> linarith
  simp only [NFW.convergence, translateRotate, hs, add_zero, divOpt]
  change (if L.radius x y ^ 2 - 1 = 0 then none else some (_ * nfwF (L.radius x y) / (L.radius x y ^ 2 - 1))) = _
  rw [if_neg hne, nfwF_eq hr hw, ringK, mul_div_assoc]

/-- The NFW convergence is positive and decreases with the distance to the centre (outside the
rounding window around the scale radius). -/
theorem C54_nfw (L : NFW) (hL : L.Ok) (hs : L.s = 0) (x y x' y' : ℝ) (hxy : (x, y) ≠ (L.x0, L.y0))
    (hlt : L.radius x y < L.radius x' y') (hw : 1e-6 < |L.radius x y - 1|)
    (hw' : 1e-6 < |L.radius x' y' - 1|) :
    ∃ k k', L.convergence x y = some k ∧ L.convergence x' y' = some k' ∧ 0 < k' ∧ k' < k := by
  have hr := L.radius_pos hL hxy
  have hxy' : (x', y') ≠ (L.x0, L.y0) := by
    intro hc
    have h1 := congrArg Prod.fst hc
    have h2 := congrArg Prod.snd hc
    simp only at h1 h2
    have : L.radius x' y' = 0 := by simp [NFW.radius, h1, h2]
    linarith
  have h1 := ne_one_of_window (by norm_num) hw
  have h1' := ne_one_of_window (by norm_num) hw'
  have hk := L.kappaS_pos hL
  refine ⟨_, _, L.convergence_eq hL hs hxy hw, L.convergence_eq hL hs hxy' hw', ?_, ?_⟩
  · have := ringK_pos (hr.trans hlt) h1'
    positivity
  · exact mul_lt_mul_of_pos_left (ringK_anti hr hlt h1 h1') (by positivity)

theorem nfwH_pos {x : ℝ} (h0 : 0 < x) : 0 < nfwH x := by
  by_cases hw : 1e-6 < |x - 1|
  · rw [nfwH_eq hw]
    exact ringH_pos h0 (ne_one_of_window (by norm_num) hw)
  · rw [not_lt, abs_le] at hw
    obtain ⟨w1, w2⟩ := hw
    have hlog : -0.71 < log (x / 2) := by
      rw [log_div h0.ne' two_ne_zero]
      have l2 := log_two_lt_d9
      have lx := one_sub_inv_le_log_of_pos h0
      have : x⁻¹ ≤ 1.0001 := by
        rw [inv_le_comm₀ h0 (by norm_num)]
        norm_num at w1 ⊢
        linarith
      norm_num at l2 this ⊢
      linarith
    unfold nfwH
    simp only
    by_cases h1 : x > 1
    · rw [if_pos h1, max_eq_right (by linarith)]
      have := ringF_lower (x := 1 + 1e-6) (by norm_num) (by norm_num)
      rw [ringF_gt (by norm_num)] at this
      have e : (0.9 : ℝ) < (4 - (1 + 1e-6) ^ 2) / 3 := by norm_num
      linarith
    · rw [if_neg h1]
      by_cases h2 : x < 1
      · rw [if_pos h2, min_eq_right (by linarith)]
        have := one_lt_ringF (x := 1 - 1e-6) (by norm_num) (by norm_num)
        rw [ringF_lt (by norm_num)] at this
        linarith
      · rw [if_neg h2]
        linarith

/-- The NFW deflection points away from the centre, at every radius. -/
theorem C54_nfw_deflection (L : NFW) (hL : L.Ok) (hs : L.s = 0) (x y : ℝ)
    (hxy : (x, y) ≠ (L.x0, L.y0)) :
    ∃ c, 0 < c ∧ L.deflection x y = (c * (x - L.x0), c * (y - L.y0)) := by
  have h' := radius_pos (sub_ne_zero_or hxy)
  have hr := L.radius_pos hL hxy
  have hH := nfwH_pos hr
  have hrs := L.rs_pos hL
  have h2 := nfwScaleDensity_pos hL.rhoc hL.c hL.Delta
  have := hL.G; have := hL.d_l; have := hL.d_s; have := hL.d_ls
  have := pi_pos; have := arcsecToRad_pos; have := radToArcsec_pos
  refine ⟨L.d_ls / L.d_s * (16 * π * L.Gc2 * nfwScaleDensity L.rhoc L.c L.Delta * L.rs ^ 3
    * nfwH (L.radius x y) * radToArcsec
      / (L.d_l * √((x - L.x0) ^ 2 + (y - L.y0) ^ 2) * arcsecToRad))
      / √((x - L.x0) ^ 2 + (y - L.y0) ^ 2), by positivity, ?_⟩
  simp only [NFW.deflection, NFW.physicalDeflection, translateRotate, hs, add_zero]
  change (_ * (16 * π * L.Gc2 * nfwScaleDensity L.rhoc L.c L.Delta * L.rs ^ 3
    * nfwH (L.radius x y) * radToArcsec / _ * _ / _), _ * (16 * π * L.Gc2 * nfwScaleDensity L.rhoc L.c L.Delta * L.rs ^ 3
    * nfwH (L.radius x y) * radToArcsec / _ * _ / _)) = _
  ext <;> simp only <;> ring

/-! ### The NFW convergence at the scale radius -/

/-- The full claim. -/
def C55_statement : Prop :=
  ∀ L : NFW, L.Ok → L.s = 0 → ∀ x y, (x, y) ≠ (L.x0, L.y0) → ∃ k, L.convergence x y = some k

/-- At the scale radius itself the returned value is `0/0`. -/
theorem C55_fails_value (L : NFW) (hs : L.s = 0) (x y : ℝ) (h : L.radius x y = 1) :
    L.convergence x y = none := by
  simp only [NFW.convergence, translateRotate, hs, add_zero, divOpt]
  change (if L.radius x y ^ 2 - 1 = 0 then none else _) = none
  rw [h, one_pow, sub_self, if_pos rfl]

/-- Just outside the scale radius the numerator is frozen while the denominator goes to zero: the
returned convergence exceeds any bound. -/
theorem C55_fails_unbounded (L : NFW) (hL : L.Ok) (hs : L.s = 0) (B : ℝ) :
    ∃ δ > 0, ∀ x y, 1 < L.radius x y → L.radius x y < 1 + δ →
      ∃ k, L.convergence x y = some k ∧ B < k := by
  have hk := L.kappaS_pos hL
  set κ := nfwConvergenceS L.sigmacr L.rhoc L.mass L.c L.Delta with hκ
  have hf : 0 < 1 - ringF (1 + 1e-6) := by
    have := ringF_lt_one (x := 1 + 1e-6) (by norm_num); linarith
  set f0 := 1 - ringF (1 + 1e-6) with hf0
  -- inside the window the numerator is `f0`
  have hF : ∀ r : ℝ, 1 < r → r ≤ 1 + 1e-6 → nfwF r = f0 := by
    intro r h1 h2
    unfold nfwF
    simp only
    rw [if_pos h1, max_eq_right h2, hf0, ringF_gt (by norm_num), two_arctan_eq (by norm_num)]
  refine ⟨min 1e-6 (2 * κ * f0 / (3 * (|B| + 1))), lt_min (by norm_num) (by positivity), ?_⟩
  intro x y h1 h2
  set r := L.radius x y with hr
  have h3 : r < 1 + 1e-6 := h2.trans_le (by linarith [min_le_left (1e-6 : ℝ) (2 * κ * f0 / (3 * (|B| + 1)))])
  have h4 : r - 1 < 2 * κ * f0 / (3 * (|B| + 1)) := by
    linarith [min_le_right (1e-6 : ℝ) (2 * κ * f0 / (3 * (|B| + 1)))]
  have hden : 0 < r ^ 2 - 1 := by nlinarith
  refine ⟨2 * κ * f0 / (r ^ 2 - 1), ?_, ?_⟩
  · simp only [NFW.convergence, translateRotate, hs, add_zero, divOpt]
    change (if r ^ 2 - 1 = 0 then none else some (2 * κ * nfwF r / (r ^ 2 - 1))) = _
    rw [if_neg hden.ne', hF r h1 h3.le]
  · rw [lt_div_iff₀ (by positivity)] at h4
    rw [lt_div_iff₀ hden]
    have hB := le_abs_self B
    have hB0 := abs_nonneg B
    have : r ^ 2 - 1 ≤ 3 * (r - 1) := by
      have : r ≤ 2 := by norm_num at h3; linarith
      nlinarith
    nlinarith

/-- Away from the window the convergence is the analytic profile; it lies between `2/3 κ_s` and
`2/3 κ_s / r²`, so it tends to `2/3 κ_s` as far as the window allows. -/
theorem C55_partial (L : NFW) (hL : L.Ok) (hs : L.s = 0) (x y : ℝ) (hxy : (x, y) ≠ (L.x0, L.y0))
    (hw : 1e-6 < |L.radius x y - 1|) :
    ∃ k, L.convergence x y = some k ∧
      min 1 (1 / L.radius x y ^ 2) * (2 / 3 * nfwConvergenceS L.sigmacr L.rhoc L.mass L.c L.Delta) ≤ k ∧
      k ≤ max 1 (1 / L.radius x y ^ 2) * (2 / 3 * nfwConvergenceS L.sigmacr L.rhoc L.mass L.c L.Delta) := by
  have hr := L.radius_pos hL hxy
  have h1 := ne_one_of_window (by norm_num) hw
  have hk := L.kappaS_pos hL
  refine ⟨_, L.convergence_eq hL hs hxy hw, ?_⟩
  generalize nfwConvergenceS _ _ _ _ _ = κ at *
  generalize L.radius x y = r at *
  have hl := ringF_lower hr h1
  have hu := ringF_upper hr h1
  have hr2 : 0 < r ^ 2 := by positivity
  have hu' : (2 * r ^ 2 + 1) / (3 * r ^ 2) = 1 - (r ^ 2 - 1) / (3 * r ^ 2) := by field_simp; ring
  rw [hu'] at hu
  have key : min 1 (1 / r ^ 2) ≤ 3 * ringK r ∧ 3 * ringK r ≤ max 1 (1 / r ^ 2) := by
    rcases lt_or_gt_of_ne h1 with h | h
    · have hd : r ^ 2 - 1 < 0 := by nlinarith
      constructor
      · refine (min_le_left _ _).trans ?_
        have := ringK_gt hr h
        linarith
      · refine le_trans ?_ (le_max_right _ _)
        have e : 3 * ringK r = (3 * (1 - ringF r)) / (r ^ 2 - 1) := by unfold ringK; ring
        rw [e, div_le_iff_of_neg hd]
        have e2 : 1 / r ^ 2 * (r ^ 2 - 1) = 3 * ((r ^ 2 - 1) / (3 * r ^ 2)) := by field_simp
        rw [e2]
        linarith
    · have hd : 0 < r ^ 2 - 1 := by nlinarith
      constructor
      · refine (min_le_right _ _).trans ?_
        have e : 3 * ringK r = (3 * (1 - ringF r)) / (r ^ 2 - 1) := by unfold ringK; ring
        rw [e, le_div_iff₀ hd]
        have e2 : 1 / r ^ 2 * (r ^ 2 - 1) = 3 * ((r ^ 2 - 1) / (3 * r ^ 2)) := by field_simp
        rw [e2]
        linarith
      · refine le_trans ?_ (le_max_left _ _)
        have := ringK_lt h
        linarith
  have hk' : 0 ≤ 2 / 3 * κ := by positivity
  have e : 2 * κ * ringK r = 3 * ringK r * (2 / 3 * κ) := by ring
  rw [e]
  exact ⟨mul_le_mul_of_nonneg_right key.1 hk', mul_le_mul_of_nonneg_right key.2 hk'⟩

/-! ### Concrete instances -/

/-- A lens whose scale radius is one distance unit, seen so that one arcsecond is one scale radius. -/
noncomputable def unitNFW : NFW where
  Gc2 := 1
  x0 := 0
  y0 := 0
  mass := 4 * π / 3
  c := 1
  Delta := 1
  rhoc := 1
  d_l := radToArcsec
  d_s := 1
  d_ls := 1
  sigmacr := 1 / (4 * π * 1 * radToArcsec * 1)
  s := 0

theorem unitNFW_ok : unitNFW.Ok where
  G := by norm_num [unitNFW]
  mass := by simp only [unitNFW]; have := pi_pos; positivity
  c := by norm_num [unitNFW]
  Delta := by norm_num [unitNFW]
  rhoc := by norm_num [unitNFW]
  d_l := radToArcsec_pos
  d_s := by norm_num [unitNFW]
  d_ls := by norm_num [unitNFW]
  sigmacr := rfl

theorem unitNFW_radius (x : ℝ) (hx : 0 ≤ x) : unitNFW.radius x 0 = x := by
  have hpi := pi_pos
  have hrs : unitNFW.rs = 1 := by
    simp only [NFW.rs, nfwScaleRadius, unitNFW]
    rw [show 3 * (4 * π / 3) / (4 * π * 1 * 1) = 1 by field_simp]
    simp
  have := radToArcsec_pos
  simp only [NFW.radius, hrs]
  simp only [unitNFW, arcsecToRad, sub_zero, zero_pow two_ne_zero, add_zero, sqrt_sq hx]
  field_simp

/-- At two scale radii. -/
example : HasGrad unitNFW.potential (unitNFW.deflection 2 0).1 (unitNFW.deflection 2 0).2 2 0 :=
  C23_nfw unitNFW unitNFW_ok rfl 2 0 (by simp [unitNFW]) (by
    rw [unitNFW_radius 2 (by norm_num)]; norm_num)

example : ∃ k, unitNFW.convergence 2 0 = some k ∧ HasKappa unitNFW.deflection k 2 0 :=
  C24_nfw unitNFW unitNFW_ok rfl 2 0 (by simp [unitNFW]) (by
    rw [unitNFW_radius 2 (by norm_num)]; norm_num)

example : ∃ k k', unitNFW.convergence 2 0 = some k ∧ unitNFW.convergence 3 0 = some k' ∧ 0 < k' ∧ k' < k :=
  C54_nfw unitNFW unitNFW_ok rfl 2 0 3 0 (by simp [unitNFW])
    (by rw [unitNFW_radius 2 (by norm_num), unitNFW_radius 3 (by norm_num)]; norm_num)
    (by rw [unitNFW_radius 2 (by norm_num)]; norm_num)
    (by rw [unitNFW_radius 3 (by norm_num)]; norm_num)

/-- At one scale radius: the refutation of the full claim. -/
theorem C55_fails : ¬ C55_statement := by
  intro h
  obtain ⟨k, hk⟩ := h unitNFW unitNFW_ok rfl 1 0 (by simp [unitNFW])
  rw [C55_fails_value unitNFW rfl 1 0 (unitNFW_radius 1 (by norm_num))] at hk
  cases hk

/-- A pseudo-Jaffe lens of core 3 and scale 4, within radius 4. -/
example : pjMassEnclosed 0 1 3 4 0 = 0 ∧ pjMassEnclosed 0 1 3 4 0 < pjMassEnclosed 4 1 3 4 0 ∧
    pjMassEnclosed 4 1 3 4 0 < 1 :=
  C54_pseudo_jaffe_mass_grows 1 3 4 one_pos (by norm_num) (by norm_num) (by norm_num) 0 4 le_rfl
    (by norm_num)

end Caustics

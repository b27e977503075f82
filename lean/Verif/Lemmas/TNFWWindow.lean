import Verif.Lemmas.TNFWMono
import Verif.Lemmas.Halo
import Mathlib.Analysis.Calculus.MeanValue

/-! The truncated NFW profile next to the scale radius, where the code replaces a function by three terms of its series. -/

open Real Filter Topology Set

namespace Caustics

/-- The polynomial of lenses/func/tnfw.py:63. -/
noncomputable def ringS (x : ℝ) : ℝ := 1 - 2 * (x - 1) / 3 + 7 * (x - 1) ^ 2 / 15

theorem hasDerivAt_ringS (x : ℝ) : HasDerivAt ringS (-2 / 3 + 14 * (x - 1) / 15) x := by
  have h1 : HasDerivAt (fun x : ℝ => x - 1) 1 x := (hasDerivAt_id x).sub_const 1
  have h := ((h1.const_mul 2).div_const 3).const_sub 1 |>.add (((h1.pow 2).const_mul 7).div_const 15)
  refine h.congr_deriv ?_
  simp
  ring

theorem tnfwF_window {x : ℝ} (h : |x - 1| ≤ 1e-2) : tnfwF x = ringS x := by
  obtain ⟨h1, h2⟩ := abs_le.1 h
  unfold tnfwF ringS
  simp only
  rw [if_neg (by linarith), if_neg (by linarith)]

/-- The remainder of the differential equation of `ringF`. -/
theorem ringS_ode (x : ℝ) : x * (x ^ 2 - 1) * (-2 / 3 + 14 * (x - 1) / 15) + x ^ 2 * ringS x =
    1 + (12 / 5 * (x - 1) ^ 3 + 7 / 5 * (x - 1) ^ 4) := by
  unfold ringS; ring

theorem continuousOn_ringF_Ioi : ContinuousOn ringF (Ioi 0) := by
  intro x hx
  rcases eq_or_ne x 1 with rfl | h
  · exact continuousAt_ringF_one.continuousWithinAt
  · exact (hasDerivAt_ringF hx h).continuousAt.continuousWithinAt

theorem ringS_err_gt {x : ℝ} (h : 1 < x) :
    0 < ringS x - ringF x ∧ ringS x - ringF x ≤ 2 / 5 * (x - 1) ^ 3 := by
  set u : ℝ → ℝ := fun x => √(x ^ 2 - 1) * (ringS x - ringF x) with hu
  set v : ℝ → ℝ := fun x => √(x ^ 2 - 1) * (2 / 5 * (x - 1) ^ 3) with hv
  have hsq : ∀ y : ℝ, 1 < y → HasDerivAt (fun x : ℝ => √(x ^ 2 - 1)) (y / √(y ^ 2 - 1)) y := fun y hy => by
    have : HasDerivAt (fun x : ℝ => x ^ 2 - 1) (2 * y) y := by
      refine (((hasDerivAt_id y).pow 2).sub_const 1).congr_deriv ?_
      simp
    refine (this.sqrt (by nlinarith)).congr_deriv ?_
    have := (sqrt_sq_sub_one hy).1
    field_simp
  have du : ∀ y : ℝ, 1 < y → HasDerivAt u ((12 / 5 * (y - 1) ^ 3 + 7 / 5 * (y - 1) ^ 4) / (y * √(y ^ 2 - 1))) y := fun y hy => by
    have hd := (hsq y hy).mul ((hasDerivAt_ringS y).sub (hasDerivAt_ringF (by linarith) hy.ne'))
    refine hd.congr_deriv ?_
    obtain ⟨p, e⟩ := sqrt_sq_sub_one hy
    have ho := ringS_ode y
    simp only [Pi.sub_apply]
    have h1 : y ^ 2 - 1 ≠ 0 := by nlinarith
    generalize √(y ^ 2 - 1) = w at *
    rw [← e] at ho h1 ⊢
    generalize ringS y = S at *
    generalize ringF y = F at *
    have hy0 : y ≠ 0 := by linarith
    field_simp
    linear_combination 225 * ho
  have dv : ∀ y : ℝ, 1 < y → HasDerivAt v ((y - 1) ^ 3 * (14 / 5 + 8 / 5 * (y - 1)) / √(y ^ 2 - 1)) y := fun y hy => by
    have h1 : HasDerivAt (fun x : ℝ => x - 1) 1 y := (hasDerivAt_id y).sub_const 1
    have hd := (hsq y hy).mul ((h1.pow 3).const_mul (2 / 5))
    refine hd.congr_deriv ?_
    obtain ⟨p, e⟩ := sqrt_sq_sub_one hy
    have e2 : √(y ^ 2 - 1) * √(y ^ 2 - 1) = y ^ 2 - 1 := by rw [← sq, e]
    generalize √(y ^ 2 - 1) = w at *
    field_simp
    simp
    linear_combination (6 * (y - 1) ^ 2) * e
  have cu : ContinuousOn u (Ici 1) := by
    refine ContinuousOn.mul (by fun_prop) (ContinuousOn.sub ?_ (continuousOn_ringF_Ioi.mono fun y hy => ?_))
    · unfold ringS; fun_prop
    · exact mem_Ioi.2 (lt_of_lt_of_le one_pos hy)
  have cv : ContinuousOn v (Ici 1) := by
    rw [hv]; fun_prop
  have u1 : u 1 = 0 := by simp [hu]
  have v1 : v 1 = 0 := by simp [hv]
  have hmu : StrictMonoOn u (Ici 1) := strictMonoOn_of_deriv_pos (convex_Ici 1) cu fun y hy => by
    rw [interior_Ici] at hy
    have hy : 1 < y := hy
    rw [(du y hy).deriv]
    have := (sqrt_sq_sub_one hy).1
    have : 0 < y - 1 := by linarith
    positivity
  have hmv : MonotoneOn (fun y => v y - u y) (Ici 1) := by
    refine monotoneOn_of_deriv_nonneg (convex_Ici 1) (cv.sub cu) ?_ fun y hy => ?_
    · intro y hy
      rw [interior_Ici] at hy
      exact ((dv y hy).sub (du y hy)).differentiableAt.differentiableWithinAt
    · rw [interior_Ici] at hy
      have hy : 1 < y := hy
      have e := ((dv y hy).sub (du y hy)).deriv
      have e' : deriv (fun y => v y - u y) y = deriv (v - u) y := rfl
      rw [e', e]
      obtain ⟨p, -⟩ := sqrt_sq_sub_one hy
      have hy1 : 0 < y - 1 := by linarith
      rw [div_mul_eq_div_div, ← sub_div]
      refine div_nonneg ?_ p.le
      rw [sub_nonneg, div_le_iff₀ (by linarith)]
      have : 0 < (y - 1) ^ 3 := by positivity
      nlinarith [mul_pos this hy1, mul_pos (mul_pos this hy1) hy1]
  obtain ⟨p, -⟩ := sqrt_sq_sub_one h
  have a := hmu (mem_Ici.2 le_rfl) (mem_Ici.2 h.le) h
  have b := hmv (mem_Ici.2 le_rfl) (mem_Ici.2 h.le) h.le
  simp only [u1, v1, sub_self] at a b
  refine ⟨pos_of_mul_pos_right a p.le, ?_⟩
  exact le_of_mul_le_mul_left (by simpa [hu, hv] using b) p

theorem ringS_err_lt {x : ℝ} (h0 : 1 - 1 / 10 ≤ x) (h : x < 1) :
    ringS x - ringF x < 0 ∧ 2 / 5 * (x - 1) ^ 3 ≤ ringS x - ringF x := by
  set u : ℝ → ℝ := fun x => √(1 - x ^ 2) * (ringS x - ringF x) with hu
  set v : ℝ → ℝ := fun x => √(1 - x ^ 2) * (2 / 5 * (x - 1) ^ 3) with hv
  have hsq : ∀ y : ℝ, 0 < y → y < 1 → HasDerivAt (fun x : ℝ => √(1 - x ^ 2)) (-y / √(1 - y ^ 2)) y := fun y hy0 hy => by
    have : HasDerivAt (fun x : ℝ => 1 - x ^ 2) (-(2 * y)) y := by
      refine (((hasDerivAt_id y).pow 2).const_sub 1).congr_deriv ?_
      simp
    refine (this.sqrt (by nlinarith)).congr_deriv ?_
    have := (sqrt_one_sub_sq hy0 hy).1
    field_simp
  have du : ∀ y : ℝ, 0 < y → y < 1 →
      HasDerivAt u (-(12 / 5 * (y - 1) ^ 3 + 7 / 5 * (y - 1) ^ 4) / (y * √(1 - y ^ 2))) y := fun y hy0 hy => by
    have hd := (hsq y hy0 hy).mul ((hasDerivAt_ringS y).sub (hasDerivAt_ringF hy0 hy.ne))
    refine hd.congr_deriv ?_
    obtain ⟨p, e⟩ := sqrt_one_sub_sq hy0 hy
    have ho := ringS_ode y
    simp only [Pi.sub_apply]
    have e2 : y ^ 2 - 1 = -√(1 - y ^ 2) ^ 2 := by rw [e]; ring
    rw [e2] at ho ⊢
    generalize √(1 - y ^ 2) = w at *
    generalize ringS y = S at *
    generalize ringF y = F at *
    field_simp
    linear_combination (-225) * ho
  have dv : ∀ y : ℝ, 0 < y → y < 1 →
      HasDerivAt v (-(y - 1) ^ 3 * (14 / 5 + 8 / 5 * (y - 1)) / √(1 - y ^ 2)) y := fun y hy0 hy => by
    have h1 : HasDerivAt (fun x : ℝ => x - 1) 1 y := (hasDerivAt_id y).sub_const 1
    have hd := (hsq y hy0 hy).mul ((h1.pow 3).const_mul (2 / 5))
    refine hd.congr_deriv ?_
    obtain ⟨p, e⟩ := sqrt_one_sub_sq hy0 hy
    generalize √(1 - y ^ 2) = w at *
    field_simp
    simp
    linear_combination (6 * (y - 1) ^ 2) * e
  have cu : ContinuousOn u (Icc (1 - 1 / 10) 1) := by
    refine ContinuousOn.mul (by fun_prop) (ContinuousOn.sub ?_ (continuousOn_ringF_Ioi.mono fun y hy => ?_))
    · unfold ringS; fun_prop
    · have := hy.1
      exact mem_Ioi.2 (by linarith)
  have cv : ContinuousOn v (Icc (1 - 1 / 10) 1) := by
    rw [hv]; fun_prop
  have u1 : u 1 = 0 := by simp [hu]
  have v1 : v 1 = 0 := by simp [hv]
  have hmu : StrictMonoOn u (Icc (1 - 1 / 10) 1) := strictMonoOn_of_deriv_pos (convex_Icc _ _) cu fun y hy => by
    rw [interior_Icc] at hy
    have h0 : 0 < y := by linarith [hy.1]
    rw [(du y h0 hy.2).deriv]
    have hq := (sqrt_one_sub_sq h0 hy.2).1
    have h3 : (y - 1) ^ 3 < 0 := by
      have := pow_pos (show 0 < 1 - y by linarith [hy.2]) 3
      nlinarith
    refine div_pos ?_ (by positivity)
    nlinarith [hy.1, mul_pos_of_neg_of_neg h3 (show (-(1 / 10)) - (y - 1) < 0 by linarith [hy.1])]
  have hmv : MonotoneOn (fun y => v y - u y) (Icc (1 - 1 / 10) 1) := by
    refine monotoneOn_of_deriv_nonneg (convex_Icc _ _) (cv.sub cu) ?_ fun y hy => ?_
    · intro y hy
      rw [interior_Icc] at hy
      have h0 : 0 < y := by linarith [hy.1]
      exact ((dv y h0 hy.2).sub (du y h0 hy.2)).differentiableAt.differentiableWithinAt
    · rw [interior_Icc] at hy
      have h0 : 0 < y := by linarith [hy.1]
      have e := ((dv y h0 hy.2).sub (du y h0 hy.2)).deriv
      have e' : deriv (fun y => v y - u y) y = deriv (v - u) y := rfl
      rw [e', e]
      obtain ⟨p, -⟩ := sqrt_one_sub_sq h0 hy.2
      rw [div_mul_eq_div_div, ← sub_div]
      refine div_nonneg ?_ p.le
      rw [sub_nonneg, div_le_iff₀ h0]
      have h3 : 0 < (1 - y) ^ 3 := pow_pos (by linarith [hy.2]) 3
      have : 0 ≤ (1 - y) ^ 3 * (2 / 5 + 3 * (y - 1) + 8 / 5 * (y - 1) ^ 2) := by
        refine mul_nonneg h3.le ?_
        nlinarith [hy.1]
      linarith
  obtain ⟨p, -⟩ := sqrt_one_sub_sq (by linarith) h
  have a := hmu ⟨h0, h.le⟩ ⟨by norm_num, le_rfl⟩ h
  have b := hmv ⟨h0, h.le⟩ ⟨by norm_num, le_rfl⟩ h.le
  simp only [u1, v1, sub_self] at a b
  refine ⟨neg_of_mul_neg_right a p.le, ?_⟩
  refine le_of_mul_le_mul_left ?_ p
  simp only [hu, hv] at b
  linarith

/-- The window is accurate to four parts in ten million. -/
theorem tnfwF_err {x : ℝ} (h : |x - 1| ≤ 1e-2) : |tnfwF x - ringF x| ≤ 2 / 5 * |x - 1| ^ 3 := by
  rw [tnfwF_window h]
  obtain ⟨h1, h2⟩ := abs_le.1 h
  rcases lt_trichotomy x 1 with hx | rfl | hx
  · obtain ⟨a, b⟩ := ringS_err_lt (by norm_num at h1 ⊢; linarith) hx
    rw [abs_of_neg a, abs_of_neg (by linarith)]
    have : (-(x - 1)) ^ 3 = -(x - 1) ^ 3 := by ring
    rw [this]
    linarith
  · norm_num [ringS, ringF]
  · obtain ⟨a, b⟩ := ringS_err_gt hx
    rwa [abs_of_pos a, abs_of_pos (by linarith)]

theorem ringF_err {x : ℝ} (h : |x - 1| ≤ 1e-2) : |ringS x - ringF x| ≤ 2 / 5 * |x - 1| ^ 3 := by
  rw [← tnfwF_window h]; exact tnfwF_err h

theorem hasDerivAt_ringF_one : HasDerivAt ringF (-2 / 3) 1 := by
  have h1 := hasDerivAt_ringS 1
  rw [sub_self, mul_zero, zero_div, add_zero] at h1
  have h2 : HasDerivAt (fun x => ringF x - ringS x) 0 1 := by
    rw [hasDerivAt_iff_isLittleO]
    have e : ringF 1 - ringS 1 = 0 := by norm_num [ringF, ringS]
    simp only [e, smul_zero, sub_zero]
    have hO : (fun x => ringF x - ringS x) =O[𝓝 (1 : ℝ)] fun x : ℝ => (x - 1) ^ 3 := by
      refine Asymptotics.IsBigO.of_bound (2 / 5) ?_
      have : ∀ᶠ x : ℝ in 𝓝 1, |x - 1| ≤ 1e-2 := by
        have hc : ContinuousAt (fun x : ℝ => |x - 1|) 1 := by fun_prop
        have := hc.tendsto.eventually_lt_const (u := 1e-2) (by norm_num)
        filter_upwards [this] with x hx using hx.le
      filter_upwards [this] with x hx
      rw [norm_eq_abs, abs_sub_comm, norm_eq_abs, abs_pow]
      exact ringF_err hx
    refine hO.trans_isLittleO ?_
    have h3 : (fun x : ℝ => (x - 1) ^ 3) = fun x : ℝ => (x - 1) ^ 2 * (x - 1) := by
      funext x; ring
    rw [h3]
    have : (fun x : ℝ => (x - 1) ^ 2) =o[𝓝 1] fun _ => (1 : ℝ) := by
      rw [Asymptotics.isLittleO_one_iff]
      have hc : ContinuousAt (fun x : ℝ => (x - 1) ^ 2) 1 := by fun_prop
      simpa using hc.tendsto
    simpa using this.mul_isBigO (Asymptotics.isBigO_refl (fun x : ℝ => x - 1) (𝓝 1))
  have := h2.add h1
  rw [zero_add] at this
  refine this.congr_of_eventuallyEq (Eventually.of_forall fun x => ?_)
  simp

/-- The mass grows by the surface density at every radius. -/
theorem hasDerivAt_tnfwMb_all {t g : ℝ} (ht : 0 < t) (hg : 0 < g) :
    HasDerivAt (tnfwMb t) ((t ^ 2 + 1) ^ 2 / t ^ 2 * g * tnfwK t g) g := by
  rcases eq_or_ne g 1 with rfl | h1
  swap
  · exact hasDerivAt_tnfwMb ht hg h1
  have hF := hasDerivAt_ringF_one
  have hL := hasDerivAt_tnfwL one_pos ht
  have hq := hasDerivAt_sqrt_add_sq (a := t ^ 2) (x := (1 : ℝ)) (by positivity)
  have hw : 0 < √(t ^ 2 + 1 ^ 2) := sqrt_pos.mpr (by positivity)
  have h2 : HasDerivAt (fun g : ℝ => t ^ 2 + 1 + 2 * (g ^ 2 - 1)) (4 * 1) 1 := by
    refine (((((hasDerivAt_id (1 : ℝ)).pow 2).sub_const 1).const_mul 2).const_add _).congr_deriv ?_
    simp; ring
  have hd := ((((h2.mul hF).add_const (t * π)).add_const ((t ^ 2 - 1) * log t)).add
    (hq.mul (((hL.const_mul (t ^ 2 - 1)).div_const t).const_add (-π))))
  refine hd.congr_deriv ?_
  have e : ringF 1 = 1 := by norm_num [ringF]
  rw [tnfwK, ringG, if_pos rfl, e]
  generalize √(t ^ 2 + 1 ^ 2) = w at *
  generalize tnfwL 1 t = L
  field_simp
  ring

/-! ### Lower bounds -/

/-- Antiderivative of `1 / r⁵` along a line of sight. -/
noncomputable def los5 (R z : ℝ) : ℝ := z * (3 * R ^ 2 + 2 * z ^ 2) / (3 * R ^ 4 * losR R z ^ 3)

theorem hasDerivAt_los5 {R : ℝ} (hR : 0 < R) (z : ℝ) : HasDerivAt (los5 R) (1 / losR R z ^ 5) z := by
  have hr := losR_pos hR z
  have hd := (((hasDerivAt_id z).mul ((((hasDerivAt_id z).pow 2).const_mul 2).const_add (3 * R ^ 2))).div
    (((hasDerivAt_losR hR z).pow 3).const_mul (3 * R ^ 4)) (by simp only [Pi.pow_apply]; positivity))
  refine hd.congr_deriv ?_
  have e := losR_sq R z
  have e2 : R ^ 2 = losR R z ^ 2 - z ^ 2 := by rw [e]; ring
  have e4 : R ^ 4 = (losR R z ^ 2 - z ^ 2) ^ 2 := by rw [← e2]; ring
  have hp : losR R z ^ 2 - z ^ 2 ≠ 0 := by rw [← e2]; positivity
  simp only [id, Pi.mul_apply, Pi.pow_apply]
  rw [e4, e2]
  generalize losR R z = r at *
  field_simp
  simp
  ring

theorem tendsto_los5 {R : ℝ} (hR : 0 < R) : Tendsto (los5 R) atTop (𝓝 (2 / (3 * R ^ 4))) := by
  have h1 := (tendsto_losR_div R).inv₀ one_ne_zero
  have h2 : Tendsto (fun z : ℝ => R ^ 2 * (z⁻¹) ^ 2) atTop (𝓝 (R ^ 2 * 0 ^ 2)) := (tendsto_inv_atTop_zero.pow 2).const_mul _
  have h := (((h2.const_mul 3).add_const 2).mul (h1.pow 3)).div_const (3 * R ^ 4)
  rw [show (3 * (R ^ 2 * 0 ^ 2) + 2) * 1⁻¹ ^ 3 / (3 * R ^ 4) = 2 / (3 * R ^ 4) by simp] at h
  refine h.congr' ?_
  · filter_upwards [eventually_gt_atTop 0] with z hz
    have hr := losR_pos hR z
    unfold los5
    field_simp

/-- The surface density of the truncated profile beyond the scale radius, from below. -/
theorem tnfwK_lower {t g : ℝ} (ht : 0 < t) (hg : 1 < g) : t ^ 2 / (t ^ 2 + 1) / (6 * g ^ 4) < tnfwK t g := by
  have h0 : 0 < g := by linarith
  have h := los_lt (F := fun z => t ^ 2 / (t ^ 2 + 1) / 4 * los5 g z) (F' := losT t g)
    (g := fun z => t ^ 2 / (t ^ 2 + 1) / 4 * (1 / losR g z ^ 5))
    (fun z _ => (hasDerivAt_los5 h0 z).const_mul _) (fun z hz => hasDerivAt_losT h0 ht hz) (fun z hz => ?_)
    (by simp [los5, losT_zero h0]) ((tendsto_los5 h0).const_mul _) (tendsto_losT h0 ht)
  · refine lt_of_eq_of_lt ?_ h
    field_simp
    norm_num
  · have hr := losR_pos h0 z
    have hr1 : 1 < losR g z := by
      have h1 := losR_sq g z
      nlinarith [sq_nonneg z]
    generalize losR g z = r at *
    have hA : (1 : ℝ) / (4 * r ^ 2) < 1 / (1 + r) ^ 2 := one_div_lt_one_div_of_lt (by positivity) (by nlinarith)
    have hB : t ^ 2 / ((t ^ 2 + 1) * r ^ 2) < t ^ 2 / (t ^ 2 + r ^ 2) := by
      refine div_lt_div_of_pos_left (by positivity) (by positivity) ?_
      have : 0 < t ^ 2 * (r ^ 2 - 1) := by
        have : 0 < r ^ 2 - 1 := by nlinarith
        positivity
      linarith
    have hm := mul_lt_mul_of_pos_left (mul_lt_mul'' hA hB (by positivity) (by positivity)) (show 0 < 1 / r by positivity)
    refine lt_of_eq_of_lt ?_ (hm.trans_eq ?_)
    · field_simp
    · field_simp

/-- At the radii of the window. -/
theorem tnfwK_window {t g : ℝ} (ht : 0 < t) (h : |g - 1| ≤ 1e-2) : 4 / 25 * (t ^ 2 / (t ^ 2 + 1)) < tnfwK t g := by
  obtain ⟨h1, h2⟩ := abs_le.1 h
  have hg : 0 < g := by norm_num at h1; linarith
  have hle : tnfwK t (1 + 1e-2) ≤ tnfwK t g := by
    rcases eq_or_lt_of_le (show g ≤ 1 + 1e-2 by linarith) with rfl | hlt
    · exact le_rfl
    · exact (tnfwK_anti hg hlt ht).le
  refine lt_of_lt_of_le ?_ ((tnfwK_lower ht (by norm_num : (1 : ℝ) < 1 + 1e-2)).le.trans hle)
  have hp : 0 < t ^ 2 / (t ^ 2 + 1) := by positivity
  rw [lt_div_iff₀ (by norm_num)]
  norm_num
  nlinarith

/-- The projected mass is at least that of a disc of the density at its edge. -/
theorem tnfwMb_lower {t g : ℝ} (ht : 0 < t) (hg : 0 < g) :
    (t ^ 2 + 1) ^ 2 / t ^ 2 * (g ^ 2 / 2 * tnfwK t g) ≤ tnfwMb t g := by
  set c := (t ^ 2 + 1) ^ 2 / t ^ 2 with hc
  have hc0 : 0 < c := by positivity
  have hmono : MonotoneOn (fun s => tnfwMb t s - c * (s ^ 2 / 2 * tnfwK t g)) (Ioc 0 g) := by
    have hd : ∀ s, 0 < s → HasDerivAt (fun s => tnfwMb t s - c * (s ^ 2 / 2 * tnfwK t g)) (c * s * (tnfwK t s - tnfwK t g)) s := by
      intro s hs
      have h2 : HasDerivAt (fun s : ℝ => c * (s ^ 2 / 2 * tnfwK t g)) (c * (s * tnfwK t g)) s := by
        refine (((((hasDerivAt_id s).pow 2).div_const 2).mul_const (tnfwK t g)).const_mul c).congr_deriv ?_
        simp
      refine ((hasDerivAt_tnfwMb_all ht hs).sub h2).congr_deriv ?_
      rw [← hc]; ring
    refine monotoneOn_of_deriv_nonneg (convex_Ioc 0 g) (fun s hs => (hd s hs.1).continuousAt.continuousWithinAt)
      (fun s hs => ?_) fun s hs => ?_
    · rw [interior_Ioc] at hs
      exact (hd s hs.1).differentiableAt.differentiableWithinAt
    · rw [interior_Ioc] at hs
      rw [(hd s hs.1).deriv]
      have := tnfwK_anti hs.1 hs.2 ht
      exact mul_nonneg (mul_nonneg hc0.le hs.1.le) (by linarith)
  have hlim : Tendsto (fun s => tnfwMb t s - c * (s ^ 2 / 2 * tnfwK t g)) (𝓝[>] 0) (𝓝 (0 - c * (0 ^ 2 / 2 * tnfwK t g))) := by
    refine Tendsto.sub (tendsto_tnfwBracket_zero ht) ?_
    have : ContinuousAt (fun s : ℝ => c * (s ^ 2 / 2 * tnfwK t g)) 0 := by fun_prop
    exact this.tendsto.mono_left nhdsWithin_le_nhds
  have hle : (0 - c * (0 ^ 2 / 2 * tnfwK t g)) ≤ tnfwMb t g - c * (g ^ 2 / 2 * tnfwK t g) := by
    refine le_of_tendsto hlim ?_
    have : Ioc 0 g ∈ 𝓝[>] (0 : ℝ) := Ioc_mem_nhdsGT hg
    filter_upwards [this] with s hs
    exact hmono hs ⟨hg, le_rfl⟩ hs.2
  simp at hle
  linarith

end Caustics

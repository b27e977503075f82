import Verif.Props.FieldOfView
import Verif.Props.Truncation
import Verif.Props.EnclosedMass2D

/-! C128 for the halo lenses and multipoles: how far from a source its images can be. -/

namespace Caustics

open Real

/-- The NFW mass function `log(x/2) + F(x)` is at most `2x`. -/
theorem ringH_le {x : ℝ} (h0 : 0 < x) (h1 : x < 1) : log (x / 2) + ringF x ≤ 2 * x := by
  have hx2 : 0 < 1 - x ^ 2 := by nlinarith
  set w := √(1 - x ^ 2) with hw
  have w0 : 0 < w := sqrt_pos.2 hx2
  have ws : w ^ 2 = 1 - x ^ 2 := sq_sqrt hx2.le
  have w1 : w < 1 := by nlinarith
  have earc : arcosh (1 / x) = log (1 + w) - log x := by
    rw [← log_div (by positivity) h0.ne']
    unfold Real.arcosh
    congr 1
    have : √((1 / x) ^ 2 - 1) = w / x := by
      rw [show (1 / x) ^ 2 - 1 = (w / x) ^ 2 by rw [div_pow w, ws]; field_simp]
      exact sqrt_sq (by positivity)
    rw [this]; ring
  rw [ringF_lt h1, earc, log_div h0.ne' two_ne_zero, ← hw]
  have l0 := one_sub_inv_le_log_of_pos h0
  have l1 : log (1 + w) ≤ w := by have := log_le_sub_one_of_pos (show 0 < 1 + w by positivity); linarith
  have l2 : log (1 + w) ≤ log 2 := log_le_log (by positivity) (by linarith)
  have l3 := log_two_gt_d9
  have l4 := log_two_lt_d9
  have l5 : log x ≤ 0 := log_nonpos h0.le h1.le
  generalize log (1 + w) = u at *
  generalize log 2 = k at *
  generalize log x = l at *
  have hxl : -l * x ≤ 1 - x := by
    have := mul_le_mul_of_nonneg_right l0 h0.le
    rw [sub_mul, inv_mul_cancel₀ h0.ne'] at this
    linarith
  have key : (l - k) * w + (u - l) ≤ 2 * x * w := by
    by_cases hx : x ≤ 1 / 2
    · have hw8 : 4 / 5 ≤ w := by nlinarith
      -- `-l (1 - w) + (u - k w) ≤ (k - l)(1 - w)` and `1 - w = x² / (1 + w)`
      have e1 : (1 - w) * (1 + w) = x ^ 2 := by nlinarith
      have e2 : 0 ≤ 1 - w := by linarith
      have e3 : (1 - w) ≤ x ^ 2 * (5 / 9) := by nlinarith
      have e4 : (k - l) * x ≤ 1 := by nlinarith
      have e5 : 0 ≤ k - l := by linarith
      have e6 : (k - l) * (1 - w) ≤ x * (5 / 9) := by
        calc (k - l) * (1 - w) ≤ (k - l) * (x ^ 2 * (5 / 9)) := mul_le_mul_of_nonneg_left e3 e5
          _ = ((k - l) * x) * (x * (5 / 9)) := by ring
          _ ≤ 1 * (x * (5 / 9)) := mul_le_mul_of_nonneg_right e4 (by positivity)
          _ = _ := one_mul _
      nlinarith
    · rw [not_le] at hx
      -- `-l (1 - w) ≤ x w` and `u - k w ≤ (1 - k) w`
      have e1 : (1 - w) * (1 + w) = x ^ 2 := by nlinarith
      have e2 : 0 ≤ 1 - w := by linarith
      have e3 : 1 - x ≤ w ^ 2 := by nlinarith
      have e4 : (-l) * (1 - w) * (1 + w) ≤ x * w ^ 2 := by
        rw [mul_assoc, e1]
        nlinarith
      have e5 : (-l) * (1 - w) ≤ x * w := by
        have : (-l) * (1 - w) * 1 ≤ (-l) * (1 - w) * (1 + w) :=
          mul_le_mul_of_nonneg_left (by linarith) (mul_nonneg (by linarith) e2)
        nlinarith
      nlinarith
  have : l - k + (u - l) / w = ((l - k) * w + (u - l)) / w := by field_simp
  rw [this, div_le_iff₀ w0]
  exact key

theorem nfwH_le {x : ℝ} (h0 : 0 < x) : nfwH x ≤ 2 * x := by
  unfold nfwH
  simp only
  by_cases h1 : x > 1
  · rw [if_pos h1]
    have := ringF_lt_one (x := max x (1 + 1e-6)) (lt_max_of_lt_left h1)
    rw [ringF_gt (lt_max_of_lt_left h1)] at this
    have l := log_le_sub_one_of_pos (show 0 < x / 2 by positivity)
    linarith
  · rw [if_neg h1]
    by_cases h2 : x < 1
    · rw [if_pos h2]
      set m := min x (1 - 1e-6) with hm
      have m1 : m < 1 := (min_le_right _ _).trans_lt (by norm_num)
      have m0 : 0 < m := lt_min h0 (by norm_num)
      have hle : m ≤ x := min_le_left _ _
      have h := ringH_le m0 m1
      rw [ringF_lt m1] at h
      have hq : log (x / 2) - log (m / 2) ≤ 2 * (x - m) := by
        rw [← log_div (by positivity) (by positivity), show x / 2 / (m / 2) = x / m by field_simp]
        refine (log_le_sub_one_of_pos (by positivity)).trans ?_
        rcases le_total x (1 - 1e-6) with hx | hx
        · have : m = x := min_eq_left hx
          rw [this, div_self h0.ne']; simp
        · have : m = 1 - 1e-6 := min_eq_right hx
          rw [div_sub_one m0.ne', div_le_iff₀ m0]
          have h3 : (1 : ℝ) ≤ 2 * m := by rw [this]; norm_num
          nlinarith [sub_nonneg.2 hle]
      linarith
    · rw [if_neg h2]
      have : x = 1 := le_antisymm (not_lt.1 h1) (not_lt.1 h2)
      subst this
      have := log_le_sub_one_of_pos (show (0 : ℝ) < 1 / 2 by norm_num)
      linarith

/-- The largest deflection of an NFW lens is at most this, for every softening. -/
noncomputable def NFW.reach (L : NFW) : ℝ :=
  L.d_ls / L.d_s * (32 * π * L.Gc2 * nfwScaleDensity L.rhoc L.c L.Delta * L.rs ^ 2 * radToArcsec)

/-- An NFW lens nowhere deflects by more than `NFW.reach`. -/
theorem C128_nfw (L : NFW) (hL : L.Ok) (hs : 0 ≤ L.s) : Reach L.deflection (L.x0, L.y0) 0 L.reach 0 := by
  intro p _
  have ha := arcsecToRad_pos
  have hr := radToArcsec_pos
  have hrs := NFW.rs_pos hL
  have hpi := pi_pos
  have hdl := hL.d_l; have hds := hL.d_s; have hdls := hL.d_ls; have hG := hL.G
  have hrho : 0 < nfwScaleDensity L.rhoc L.c L.Delta := nfwScaleDensity_pos hL.rhoc hL.c hL.Delta
  have hreach : 0 ≤ L.reach := by unfold NFW.reach; positivity
  rw [zero_mul, add_zero]
  set th := len2 (p.1 - L.x0, p.2 - L.y0) + L.s with hth
  set A := L.d_ls / L.d_s * (16 * π * L.Gc2 * nfwScaleDensity L.rhoc L.c L.Delta * L.rs ^ 3
    * nfwH (L.d_l * th * arcsecToRad / L.rs) * radToArcsec / (L.d_l * th * arcsecToRad)) / th with hA
  have e : L.deflection p.1 p.2 = (A * (p.1 - L.x0), A * (p.2 - L.y0)) := by
    simp only [NFW.deflection, NFW.physicalDeflection, translateRotate]
    refine Prod.ext ?_ ?_ <;>
    · simp only [hA, hth, len2]
      ring
  have h0 := len2_nonneg (p.1 - L.x0, p.2 - L.y0)
  rw [e, len2_smul A (p.1 - L.x0, p.2 - L.y0)]
  rcases h0.eq_or_lt with h | h
  · rw [← h, mul_zero]; exact hreach
  have hthp : 0 < th := by positivity
  have hle : len2 (p.1 - L.x0, p.2 - L.y0) ≤ th := by rw [hth]; linarith
  have hx : 0 < L.d_l * th * arcsecToRad / L.rs := by positivity
  have hH := nfwH_le hx
  have hH0 := nfwH_pos hx
  have hA0 : 0 ≤ A := by rw [hA]; positivity
  rw [abs_of_nonneg hA0]
  calc A * len2 (p.1 - L.x0, p.2 - L.y0) ≤ A * th := mul_le_mul_of_nonneg_left hle hA0
    _ = L.d_ls / L.d_s * (16 * π * L.Gc2 * nfwScaleDensity L.rhoc L.c L.Delta * L.rs ^ 3 * radToArcsec)
        / (L.d_l * th * arcsecToRad) * nfwH (L.d_l * th * arcsecToRad / L.rs) := by
      rw [hA]; field_simp
    _ ≤ L.d_ls / L.d_s * (16 * π * L.Gc2 * nfwScaleDensity L.rhoc L.c L.Delta * L.rs ^ 3 * radToArcsec)
        / (L.d_l * th * arcsecToRad) * (2 * (L.d_l * th * arcsecToRad / L.rs)) :=
      mul_le_mul_of_nonneg_left hH (by positivity)
    _ = L.reach := by
      unfold NFW.reach
      field_simp
      ring

/-- A truncated NFW lens of total mass `M` reaches no further than the `Point` lens of that mass (six parts in a
million are left for the interpolation around the scale radius). -/
theorem C128_tnfw (L : TNFWLens) (hL : L.Ok) (hs : L.s = 0) (M : ℝ)
    (hM : Filter.Tendsto L.massEnclosed Filter.atTop (nhds M)) :
    Reach L.toTNFW.deflection (L.x0, L.y0)
      (massToReinPoint L.Gc2 (1.000006 * M) L.d_ls L.d_l L.d_s) (massToReinPoint L.Gc2 (1.000006 * M) L.d_ls L.d_l L.d_s) 0 := by
  have ht := hL.tau
  have hM0 := C63_tnfw_pos L hL
  have hOk : L.toTNFW.Ok := ⟨hL.G, hL.Rs, hL.tau, hL.d_l, hL.d_s, hL.d_ls, hL.sigmacr⟩
  have hlim : M = L.M0 * tnfwTot L.tau := by
    refine tendsto_nhds_unique hM ?_
    have hb := ((tendsto_tnfwMn hL.tau).comp (Filter.tendsto_id.atTop_div_const hL.Rs)).const_mul L.M0
    refine hb.congr' ?_
    filter_upwards [Filter.eventually_gt_atTop (2 * L.Rs)] with r hr
    have hg : 2 < r / L.Rs := by rw [lt_div_iff₀ hL.Rs]; exact hr
    have hw : 1e-2 < |r / L.Rs - 1| := by rw [abs_of_pos (by linarith)]; norm_num; linarith
    have h1 : L.massEnclosed r = tnfwMassEnclosed r L.Rs L.tau L.M0 := rfl
    rw [h1, tnfwMassEnclosed_eq (.inl hw)]
    simp only [Function.comp_apply, id, tnfwMn]
    ring
  have hMp : 0 < M := by rw [hlim]; exact mul_pos hM0 (tnfwTot_pos ht)
  have hall : ∀ R, 0 < R → L.massEnclosed R ≤ 1.000006 * M := by
    intro R hR
    have h1 := (abs_le.1 (C107_mass L.toTNFW hOk hM0.le R hR)).2
    have h2 : L.toTNFW.massIn R ≤ M := by
      rw [L.toTNFW.massIn_eq hOk hM0.le R hR, hlim]
      have := tnfwMb_lt ht (div_pos hR hL.Rs)
      have q : tnfwMn L.tau (R / L.Rs) < tnfwTot L.tau := by
        unfold tnfwMn tnfwTot
        exact mul_lt_mul_of_pos_left this (by positivity)
      have := mul_le_mul_of_nonneg_left q.le hM0.le
      unfold tnfwMn at this
      change L.M0 * (L.tau ^ 2 / (L.tau ^ 2 + 1) ^ 2) * _ ≤ _
      rw [mul_assoc]
      exact this
    change tnfwMassEnclosed R L.toTNFW.Rs L.toTNFW.tau L.toTNFW.M0 ≤ _
    norm_num
    linarith
  have hdl := hL.d_l; have hds := hL.d_s; have hdls := hL.d_ls; have hG := hL.G
  intro p hp
  have hp : massToReinPoint L.Gc2 (1.000006 * M) L.d_ls L.d_l L.d_s ≤ len2 (p.1 - L.x0, p.2 - L.y0) := hp
  have hpos : ∀ m, 0 < m → 0 < massToReinPoint L.Gc2 m L.d_ls L.d_l L.d_s := by
    intro m hm
    have := radToArcsec_pos
    unfold massToReinPoint
    positivity
  have hMb := hpos (1.000006 * M) (by positivity)
  have hne : (p.1, p.2) ≠ (L.x0, L.y0) := by
    intro h
    rw [Prod.mk.injEq] at h
    rw [h.1, h.2, sub_self, sub_self] at hp
    have : len2 ((0 : ℝ), (0 : ℝ)) = 0 := len2_zero
    linarith
  have hR := radius_pos (sub_ne_zero_or hne)
  rw [C110_tnfw L hL hs p.1 p.2 hne]
  have hR0 := L.massEnclosed_nonneg hL hR
  have hmono : massToReinPoint L.Gc2 (L.massEnclosed √((p.1 - L.x0) ^ 2 + (p.2 - L.y0) ^ 2)) L.d_ls L.d_l L.d_s
      ≤ massToReinPoint L.Gc2 (1.000006 * M) L.d_ls L.d_l L.d_s := by
    have := radToArcsec_pos
    have := hall _ hR
    unfold massToReinPoint
    gcongr
  have hRe0 : 0 ≤ massToReinPoint L.Gc2 (L.massEnclosed √((p.1 - L.x0) ^ 2 + (p.2 - L.y0) ^ 2)) L.d_ls L.d_l L.d_s := by
    have := radToArcsec_pos
    unfold massToReinPoint
    positivity
  have h := C128_point L.x0 L.y0 _ 0 hRe0 le_rfl p (hmono.trans hp)
  rw [zero_mul, add_zero] at h ⊢
  exact h.trans hmono

theorem C128_tnfw_total (L : TNFWLens) (hL : L.Ok) (hs : L.s = 0) (hi : L.interpretTotal = true) :
    Reach L.toTNFW.deflection (L.x0, L.y0)
      (massToReinPoint L.Gc2 (1.000006 * L.mass) L.d_ls L.d_l L.d_s)
      (massToReinPoint L.Gc2 (1.000006 * L.mass) L.d_ls L.d_l L.d_s) 0 :=
  C128_tnfw L hL hs L.mass (C63_tnfw_total L hL hi)

/-- A multipole deflects by at most `Σ |a_m| m / (m² - 1)`, at every distance. -/
theorem C128_multipole {n : ℕ} (x0 y0 : ℝ) (m a phim : Fin n → ℝ) (hm : ∀ i, 1 < m i) :
    Reach (multipoleDeflection x0 y0 m a phim) (x0, y0) 0 (∑ i, |a i| * m i / (m i ^ 2 - 1)) 0 := by
  intro p _
  rw [zero_mul, add_zero]
  set phi := arctan2 (translateRotate p.1 p.2 x0 y0 none).2 (translateRotate p.1 p.2 x0 y0 none).1
  have hsum : ∀ (s : Finset (Fin n)) (f : Fin n → ℝ × ℝ) (g : Fin n → ℝ), (∀ i, len2 (f i) ≤ g i) →
      len2 (∑ i ∈ s, (f i).1, ∑ i ∈ s, (f i).2) ≤ ∑ i ∈ s, g i := by
    intro s f g h
    induction s using Finset.induction_on with
    | empty => simp only [Finset.sum_empty]; exact le_of_eq len2_zero
    | insert i s hi ih =>
      rw [Finset.sum_insert hi, Finset.sum_insert hi, Finset.sum_insert hi]
      exact (len2_add (f i) (_, _)).trans (add_le_add (h i) ih)
  refine hsum Finset.univ (fun i => (cos phi * a i / (1 - m i ^ 2) * cos (m i * (phi - phim i))
      + sin phi * m i * a i / (1 - m i ^ 2) * sin (m i * (phi - phim i)),
    sin phi * a i / (1 - m i ^ 2) * cos (m i * (phi - phim i))
      - cos phi * m i * a i / (1 - m i ^ 2) * sin (m i * (phi - phim i)))) _ fun i => ?_
  have h1 := hm i
  have hd : 0 < m i ^ 2 - 1 := by nlinarith
  have hb : 0 ≤ |a i| * m i / (m i ^ 2 - 1) := by have := abs_nonneg (a i); positivity
  simp only [len2]
  refine sqrt_le_iff.2 ⟨hb, ?_⟩
  generalize m i * (phi - phim i) = t
  have hk : (a i / (1 - m i ^ 2)) ^ 2 * m i ^ 2 = (|a i| * m i / (m i ^ 2 - 1)) ^ 2 := by
    rw [div_pow, div_pow, mul_pow, sq_abs, show (1 - m i ^ 2) ^ 2 = (m i ^ 2 - 1) ^ 2 by ring]
    ring
  rw [← hk]
  have e : (cos phi * a i / (1 - m i ^ 2) * cos t + sin phi * m i * a i / (1 - m i ^ 2) * sin t) ^ 2
      + (sin phi * a i / (1 - m i ^ 2) * cos t - cos phi * m i * a i / (1 - m i ^ 2) * sin t) ^ 2
      = (a i / (1 - m i ^ 2)) ^ 2 * (cos t ^ 2 + m i ^ 2 * sin t ^ 2) * (sin phi ^ 2 + cos phi ^ 2) := by ring
  rw [e, sin_sq_add_cos_sq, mul_one]
  refine mul_le_mul_of_nonneg_left ?_ (sq_nonneg _)
  nlinarith [sin_sq_add_cos_sq t, sq_nonneg (cos t)]

/-- The bound of one multipole is reached: halfway between two of its axes it deflects by exactly that much. -/
theorem C128_multipole_sharp (m a : ℝ) (hm : 1 < m) (t : ℝ) (ht : 0 < t) :
    len2 (multipoleDeflection 0 0 (fun _ : Fin 1 => m) (fun _ => a) (fun _ => -(π / (2 * m))) t 0)
      = |a| * m / (m ^ 2 - 1) := by
  have hd : 0 < m ^ 2 - 1 := by nlinarith
  have h0 : arctan2 0 t = 0 := by
    have : (⟨t, 0⟩ : ℂ) = (t : ℂ) := rfl
    rw [arctan2, this, Complex.arg_ofReal_of_nonneg ht.le]
  have e : m * (π / (2 * m)) = π / 2 := by field_simp
  simp only [multipoleDeflection, translateRotate, sub_zero, h0, Finset.univ_unique, Finset.sum_singleton, cos_zero,
    sin_zero, zero_sub, neg_neg, e, cos_pi_div_two, sin_pi_div_two, len2]
  rw [show (1 * a / (1 - m ^ 2) * 0 + 0 * m * a / (1 - m ^ 2) * 1) ^ 2
      + (0 * a / (1 - m ^ 2) * 0 - 1 * m * a / (1 - m ^ 2) * 1) ^ 2 = (|a| * m / (m ^ 2 - 1)) ^ 2 by
    rw [div_pow, mul_pow, sq_abs, show (m ^ 2 - 1) ^ 2 = (1 - m ^ 2) ^ 2 by ring, ← mul_pow, ← div_pow]; ring]
  exact sqrt_sq (by positivity)

/-! ### Examples -/

/-- A quadrupole of strength 3/10 moves no image by more than 1/5. -/
example (p : ℝ × ℝ) : len2 (multipoleDeflection 0 0 (fun _ : Fin 1 => 2) (fun _ => 3 / 10) (fun _ => 1) p.1 p.2) ≤ 1 / 5 := by
  have h := C128_multipole 0 0 (fun _ : Fin 1 => (2 : ℝ)) (fun _ => 3 / 10) (fun _ => 1) (by norm_num) p (len2_nonneg _)
  refine h.trans (le_of_eq ?_)
  rw [Finset.univ_unique, Finset.sum_singleton, abs_of_pos (by norm_num)]
  norm_num

example (p : ℝ × ℝ) : len2 (unitNFW.deflection p.1 p.2) ≤ unitNFW.reach := by
  have h := C128_nfw unitNFW unitNFW_ok le_rfl p (len2_nonneg _)
  linarith

end Caustics

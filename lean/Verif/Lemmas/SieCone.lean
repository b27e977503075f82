import Verif.Model.Lenses
import Verif.Lemmas.RingBounds
import Mathlib.Analysis.SpecialFunctions.Complex.Arg
import Mathlib.Analysis.SpecialFunctions.Trigonometric.ArctanDeriv
import Mathlib.Analysis.Calculus.Deriv.MeanValue

/-!
The deflection of a singular isothermal ellipsoid depends only on the direction, and the values it takes are the boundary
of a convex set.
-/

namespace Caustics

open Real ComplexConjugate

/-- The deflection of an isothermal ellipsoid at the offset `v` in the frame of its axes, in units of
`Rein * √q / √(1 - q ^ 2)`. -/
noncomputable def sieFrame (q : ℝ) (v : ℂ) : ℂ :=
  ⟨arctan (√(1 - q ^ 2) * v.re / √(q ^ 2 * v.re ^ 2 + v.im ^ 2)),
    artanh (√(1 - q ^ 2) * v.im / √(q ^ 2 * v.re ^ 2 + v.im ^ 2))⟩

section
variable {q : ℝ}

theorem sieFrame_radius (hq : 0 < q) {v : ℂ} (hv : v ≠ 0) : 0 < q ^ 2 * v.re ^ 2 + v.im ^ 2 := by
  rcases eq_or_ne v.re 0 with h | h
  · have : v.im ≠ 0 := fun h' => hv (Complex.ext h h')
    positivity
  · positivity

theorem sieFrame_lt (hq : 0 < q) (hq1 : q < 1) {v : ℂ} (hv : v ≠ 0) :
    |√(1 - q ^ 2) * v.im / √(q ^ 2 * v.re ^ 2 + v.im ^ 2)| < 1 := by
  have hp := sieFrame_radius hq hv
  have hf2 : 0 < 1 - q ^ 2 := by nlinarith
  have hs := sqrt_pos.2 hp
  rw [abs_div, abs_of_pos hs, div_lt_one hs]
  refine abs_lt_of_sq_lt_sq ?_ hs.le
  rw [mul_pow, sq_sqrt hf2.le, sq_sqrt hp.le]
  have : 0 < q ^ 2 * (v.re ^ 2 + v.im ^ 2) := by
    have := Complex.normSq_pos.2 hv
    rw [Complex.normSq_apply] at this
    nlinarith [sq_pos_of_pos hq]
  nlinarith

theorem sieFrame_smul {t : ℝ} (ht : 0 < t) (v : ℂ) : sieFrame q (t * v) = sieFrame q v := by
  have e : √(q ^ 2 * (t * v.re) ^ 2 + (t * v.im) ^ 2) = t * √(q ^ 2 * v.re ^ 2 + v.im ^ 2) := by
    rw [show q ^ 2 * (t * v.re) ^ 2 + (t * v.im) ^ 2 = t ^ 2 * (q ^ 2 * v.re ^ 2 + v.im ^ 2) by ring,
      sqrt_mul (sq_nonneg t), sqrt_sq ht.le]
  simp only [sieFrame, Complex.re_ofReal_mul, Complex.im_ofReal_mul, e]
  rw [show √(1 - q ^ 2) * (t * v.re) = t * (√(1 - q ^ 2) * v.re) by ring,
    show √(1 - q ^ 2) * (t * v.im) = t * (√(1 - q ^ 2) * v.im) by ring, mul_div_mul_left _ _ ht.ne',
    mul_div_mul_left _ _ ht.ne']

/-- Along a circle the deflection moves at a right angle to the position. -/
theorem sieFrame_deriv (hq : 0 < q) (hq1 : q < 1) (φ : ℝ) :
    HasDerivAt (fun φ => arctan (√(1 - q ^ 2) * cos φ / √(q ^ 2 * cos φ ^ 2 + sin φ ^ 2)))
      (-(√(1 - q ^ 2) / √(q ^ 2 * cos φ ^ 2 + sin φ ^ 2) * sin φ)) φ ∧
    HasDerivAt (fun φ => artanh (√(1 - q ^ 2) * sin φ / √(q ^ 2 * cos φ ^ 2 + sin φ ^ 2)))
      (√(1 - q ^ 2) / √(q ^ 2 * cos φ ^ 2 + sin φ ^ 2) * cos φ) φ := by
  have hf2 : 0 < 1 - q ^ 2 := by nlinarith
  have hsc := sin_sq_add_cos_sq φ
  have hv : (⟨cos φ, sin φ⟩ : ℂ) ≠ 0 := fun h => by
    have h1 : cos φ = 0 := congrArg Complex.re h
    have h2 : sin φ = 0 := congrArg Complex.im h
    rw [h1, h2] at hsc
    norm_num at hsc
  have hp : 0 < q ^ 2 * cos φ ^ 2 + sin φ ^ 2 := sieFrame_radius hq hv
  have hlt := sieFrame_lt hq hq1 hv
  simp only at hlt
  set f := √(1 - q ^ 2) with hf
  have hff : f ^ 2 = 1 - q ^ 2 := sq_sqrt hf2.le
  have hr : HasDerivAt (fun φ => √(q ^ 2 * cos φ ^ 2 + sin φ ^ 2))
      (f ^ 2 * cos φ * sin φ / √(q ^ 2 * cos φ ^ 2 + sin φ ^ 2)) φ := by
    have h1 := ((((hasDerivAt_cos φ).pow 2).const_mul (q ^ 2)).add ((hasDerivAt_sin φ).pow 2)).sqrt hp.ne'
    refine h1.congr_deriv ?_
    rw [hff]
    have := (sqrt_pos.2 hp).ne'
    simp only [Pi.add_apply, Pi.pow_apply]
    field_simp
    ring
  have hs := sqrt_pos.2 hp
  have hs2 : √(q ^ 2 * cos φ ^ 2 + sin φ ^ 2) ^ 2 = q ^ 2 * cos φ ^ 2 + sin φ ^ 2 := sq_sqrt hp.le
  set S := √(q ^ 2 * cos φ ^ 2 + sin φ ^ 2) with hS
  constructor
  · have h2 := (((hasDerivAt_cos φ).const_mul f).div hr hs.ne').arctan
    refine h2.congr_deriv ?_
    have e : 1 + (f * cos φ / S) ^ 2 = 1 / S ^ 2 := by
      have : S ^ 2 + f ^ 2 * cos φ ^ 2 = 1 := by rw [hs2, hff]; linear_combination hsc
      field_simp
      linear_combination this
    simp only [Pi.div_apply, ← hS]
    rw [e]
    have h3 : S ^ 2 + f ^ 2 * cos φ ^ 2 = 1 := by rw [hs2, hff]; linear_combination hsc
    field_simp
    linear_combination (-(f * sin φ)) * h3
  · have h2 := (((hasDerivAt_sin φ).const_mul f).div hr hs.ne')
    have h3 : S ^ 2 - f ^ 2 * sin φ ^ 2 = q ^ 2 := by rw [hs2, hff]; linear_combination q ^ 2 * hsc
    have ha : HasDerivAt artanh (1 / (1 - (f * sin φ / S) ^ 2)) (f * sin φ / S) := hasDerivAt_artanh (abs_lt.1 hlt)
    refine (HasDerivAt.comp φ (h₂ := artanh) ha h2).congr_deriv ?_
    have e : 1 - (f * sin φ / S) ^ 2 = q ^ 2 / S ^ 2 := by
      field_simp
      linear_combination h3
    simp only [← hS]
    rw [e]
    field_simp
    linear_combination (f * cos φ) * h3

theorem sieFrame_circle (φ : ℝ) (r : ℝ) (hr : 0 < r) :
    sieFrame q (r * ⟨cos φ, sin φ⟩) = ⟨arctan (√(1 - q ^ 2) * cos φ / √(q ^ 2 * cos φ ^ 2 + sin φ ^ 2)),
      artanh (√(1 - q ^ 2) * sin φ / √(q ^ 2 * cos φ ^ 2 + sin φ ^ 2))⟩ := by
  rw [sieFrame_smul hr]
  rfl

/-- Among all values of the deflection, the one at `u` goes farthest in the direction of `u`. -/
theorem sieFrame_support (hq : 0 < q) (hq1 : q < 1) {u v : ℂ} (hu : u ≠ 0) (hv : v ≠ 0) :
    (sieFrame q v * conj u).re ≤ (sieFrame q u * conj u).re := by
  have hf2 : 0 < 1 - q ^ 2 := by nlinarith
  have hpolar : ∀ (r θ : ℝ), (r : ℂ) * Complex.exp (θ * Complex.I) = r * ⟨cos θ, sin θ⟩ := fun r θ => by
    congr 1
    exact Complex.ext (Complex.exp_ofReal_mul_I_re θ) (Complex.exp_ofReal_mul_I_im θ)
  set θ := Complex.arg u
  set δ := Complex.arg (v / u)
  have hun : 0 < ‖u‖ := norm_pos_iff.2 hu
  have hvn : 0 < ‖v‖ := norm_pos_iff.2 hv
  have eu : u = ‖u‖ * ⟨cos θ, sin θ⟩ := by rw [← hpolar, Complex.norm_mul_exp_arg_mul_I]
  have ev : v = ‖v‖ * ⟨cos (θ + δ), sin (θ + δ)⟩ := by
    rw [← hpolar]
    have h1 := Complex.norm_mul_exp_arg_mul_I u
    have h2 := Complex.norm_mul_exp_arg_mul_I (v / u)
    rw [norm_div] at h2
    have h3 : v = u * (v / u) := by field_simp
    have h4 : v = ‖u‖ * Complex.exp (θ * Complex.I) * (((‖v‖ / ‖u‖ : ℝ) : ℂ) * Complex.exp (δ * Complex.I)) := by
      rw [h1, h2]
      exact h3
    rw [Complex.ofReal_add, add_mul, Complex.exp_add]
    refine h4.trans ?_
    rw [Complex.ofReal_div]
    have : (‖u‖ : ℂ) ≠ 0 := Complex.ofReal_ne_zero.2 hun.ne'
    field_simp
  set G : ℝ → ℝ := fun φ => arctan (√(1 - q ^ 2) * cos φ / √(q ^ 2 * cos φ ^ 2 + sin φ ^ 2)) * cos θ +
    artanh (√(1 - q ^ 2) * sin φ / √(q ^ 2 * cos φ ^ 2 + sin φ ^ 2)) * sin θ with hG
  have hval : ∀ φ r : ℝ, 0 < r → (sieFrame q (r * ⟨cos φ, sin φ⟩) * conj u).re = ‖u‖ * G φ := by
    intro φ r hr
    rw [sieFrame_circle φ r hr, eu]
    simp only [hG, map_mul, Complex.conj_ofReal, Complex.mul_re, Complex.mul_im, Complex.conj_re, Complex.conj_im,
      Complex.ofReal_re, Complex.ofReal_im]
    rw [← eu]
    ring
  have hd : ∀ φ, HasDerivAt G (√(1 - q ^ 2) / √(q ^ 2 * cos φ ^ 2 + sin φ ^ 2) * sin (θ - φ)) φ := by
    intro φ
    obtain ⟨h1, h2⟩ := sieFrame_deriv hq hq1 φ
    refine ((h1.mul_const (cos θ)).add (h2.mul_const (sin θ))).congr_deriv ?_
    rw [sin_sub]
    ring
  have hc : Continuous G := continuous_iff_continuousAt.2 fun φ => (hd φ).continuousAt
  have h1 : MonotoneOn G (Set.Icc (θ - π) θ) := by
    refine monotoneOn_of_deriv_nonneg (convex_Icc _ _) hc.continuousOn
      (fun φ _ => (hd φ).differentiableAt.differentiableWithinAt) fun φ hφ => ?_
    rw [interior_Icc] at hφ
    rw [(hd φ).deriv]
    have := sin_nonneg_of_nonneg_of_le_pi (x := θ - φ) (by linarith [hφ.2]) (by linarith [hφ.1])
    positivity
  have h2 : AntitoneOn G (Set.Icc θ (θ + π)) := by
    refine antitoneOn_of_deriv_nonpos (convex_Icc _ _) hc.continuousOn
      (fun φ _ => (hd φ).differentiableAt.differentiableWithinAt) fun φ hφ => ?_
    rw [interior_Icc] at hφ
    rw [(hd φ).deriv]
    have := sin_nonpos_of_nonpos_of_neg_pi_le (x := θ - φ) (by linarith [hφ.1]) (by linarith [hφ.2])
    exact mul_nonpos_of_nonneg_of_nonpos (by positivity) this
  have hle : G (θ + δ) ≤ G θ := by
    have k1 : -π < δ := Complex.neg_pi_lt_arg _
    have k2 : δ ≤ π := Complex.arg_le_pi _
    rcases le_total δ 0 with h | h
    · exact h1 ⟨by linarith, by linarith⟩ ⟨by linarith [pi_pos], le_rfl⟩ (by linarith)
    · exact h2 ⟨le_rfl, by linarith [pi_pos]⟩ ⟨by linarith, by linarith⟩ (by linarith)
  have e1 := hval (θ + δ) ‖v‖ hvn
  have e2 := hval θ ‖u‖ hun
  rw [← ev] at e1
  rw [← eu] at e2
  rw [e1, e2]
  exact mul_le_mul_of_nonneg_left hle hun.le

theorem sieFrame_pos (hq : 0 < q) (hq1 : q < 1) {v : ℂ} (hv : v ≠ 0) : 0 < (sieFrame q v * conj v).re := by
  have hf : 0 < √(1 - q ^ 2) := sqrt_pos.2 (by nlinarith)
  have hp := sqrt_pos.2 (sieFrame_radius hq hv)
  have hlt := abs_lt.1 (sieFrame_lt hq hq1 hv)
  have e : (sieFrame q v * conj v).re = arctan (√(1 - q ^ 2) * v.re / √(q ^ 2 * v.re ^ 2 + v.im ^ 2)) * v.re +
      artanh (√(1 - q ^ 2) * v.im / √(q ^ 2 * v.re ^ 2 + v.im ^ 2)) * v.im := by
    rw [sieFrame, Complex.mul_re, Complex.conj_re, Complex.conj_im]
    ring
  rw [e]
  set S := √(q ^ 2 * v.re ^ 2 + v.im ^ 2)
  set f := √(1 - q ^ 2)
  have h1 : ∀ x : ℝ, x ≠ 0 → 0 < arctan (f * x / S) * x := fun x hx => by
    rcases lt_or_gt_of_ne hx with h | h
    · exact mul_pos_of_neg_of_neg (arctan_lt_zero.2 (div_neg_of_neg_of_pos (mul_neg_of_pos_of_neg hf h) hp)) h
    · exact mul_pos (arctan_pos.2 (by positivity)) h
  have h2 : v.im ≠ 0 → 0 < artanh (f * v.im / S) * v.im := fun hx => by
    rcases lt_or_gt_of_ne hx with h | h
    · exact mul_pos_of_neg_of_neg (artanh_neg ⟨hlt.1, div_neg_of_neg_of_pos (mul_neg_of_pos_of_neg hf h) hp⟩) h
    · exact mul_pos (artanh_pos ⟨by positivity, hlt.2⟩) h
  by_cases hx : v.re = 0
  · have hy : v.im ≠ 0 := fun h => hv (Complex.ext hx h)
    rw [hx, mul_zero (arctan _), zero_add]
    exact h2 hy
  · by_cases hy : v.im = 0
    · rw [hy, mul_zero (artanh _), add_zero]
      exact h1 _ hx
    · exact add_pos (h1 _ hx) (h2 hy)

/-- The edge of the cut. -/
theorem sieFrame_edge (hq1 : q < 1) (hq : 0 < q) {X Y : ℝ} (hX : |X| < π / 2)
    (h : q ^ 2 * tan X ^ 2 + tanh Y ^ 2 = 1 - q ^ 2) :
    (⟨tan X, tanh Y⟩ : ℂ) ≠ 0 ∧ sieFrame q ⟨tan X, tanh Y⟩ = ⟨X, Y⟩ := by
  have hf2 : 0 < 1 - q ^ 2 := by nlinarith
  have hf := sqrt_pos.2 hf2
  constructor
  · intro h0
    have h1 : tan X = 0 := congrArg Complex.re h0
    have h2 : tanh Y = 0 := congrArg Complex.im h0
    rw [h1, h2] at h
    norm_num at h
    linarith
  · simp only [sieFrame, h]
    rw [mul_div_cancel_left₀ _ hf.ne', mul_div_cancel_left₀ _ hf.ne', artanh_tanh,
      arctan_tan (abs_lt.1 hX).1 (abs_lt.1 hX).2]

/-- The cut in closed form. -/
theorem sieFrame_cut (hq : 0 < q) (hq1 : q < 1) (h : ℂ) :
    (∀ v : ℂ, v ≠ 0 → (h * conj v).re < (sieFrame q v * conj v).re) ↔
      |h.re| < π / 2 ∧ q ^ 2 * tan h.re ^ 2 + tanh h.im ^ 2 < 1 - q ^ 2 := by
  have hf2 : 0 < 1 - q ^ 2 := by nlinarith
  have hf := sqrt_pos.2 hf2
  have hff : √(1 - q ^ 2) ^ 2 = 1 - q ^ 2 := sq_sqrt hf2.le
  set f := √(1 - q ^ 2) with hfd
  have hf1 : f < 1 := by nlinarith [sq_pos_of_pos hq]
  set α := arctan (f / q) with hα
  have hα0 : 0 < α := arctan_pos.2 (by positivity)
  have hα1 : α < π / 2 := arctan_lt_pi_div_two _
  have htan : q ^ 2 * tan α ^ 2 = 1 - q ^ 2 := by
    rw [hα, tan_arctan, ← hff]
    field_simp
  obtain ⟨X, Y⟩ := h
  simp only
  -- the edge on the ray through `(X, Y)`
  have hcont : ∀ T : ℝ, 0 ≤ T → T * |X| < π / 2 → ContinuousOn (fun t => q ^ 2 * tan (t * X) ^ 2 + tanh (t * Y) ^ 2) (Set.Icc 0 T) := by
    intro T hT hTX
    have h1 : ContinuousOn (fun t => tan (t * X)) (Set.Icc 0 T) := by
      refine continuousOn_tan_Ioo.comp (by fun_prop) fun t ht => abs_lt.1 ?_
      rw [abs_mul, abs_of_nonneg ht.1]
      exact (mul_le_mul_of_nonneg_right ht.2 (abs_nonneg X)).trans_lt hTX
    have h2 : Continuous fun t => tanh (t * Y) := by
      have : Continuous tanh := by
        rw [show tanh = fun x => sinh x / cosh x from funext tanh_eq_sinh_div_cosh]
        exact continuous_sinh.div continuous_cosh fun x => (cosh_pos x).ne'
      exact this.comp (by fun_prop)
    exact (continuousOn_const.mul (h1.pow 2)).add (h2.continuousOn.pow 2)
  have habs : ∀ t : ℝ, tan (t * |X|) ^ 2 = tan (t * X) ^ 2 := by
    intro t
    rcases abs_cases X with ⟨h, -⟩ | ⟨h, -⟩
    · rw [h]
    · rw [h, mul_neg, tan_neg, neg_sq]
  have hreach : X ≠ 0 → 1 - q ^ 2 ≤ q ^ 2 * tan (α / |X| * X) ^ 2 + tanh (α / |X| * Y) ^ 2 := by
    intro hX
    rw [← habs, div_mul_cancel₀ _ (abs_ne_zero.2 hX), htan]
    linarith [sq_nonneg (tanh (α / |X| * Y))]
  constructor
  · intro hin
    by_contra hno
    -- the ray has crossed the edge
    have hT : ∃ T : ℝ, 0 ≤ T ∧ T ≤ 1 ∧ T * |X| < π / 2 ∧
        1 - q ^ 2 ≤ q ^ 2 * tan (T * X) ^ 2 + tanh (T * Y) ^ 2 := by
      by_cases hX : |X| < π / 2
      · refine ⟨1, zero_le_one, le_rfl, by rwa [one_mul], ?_⟩
        rw [one_mul, one_mul]
        exact not_lt.1 fun h => hno ⟨hX, h⟩
      · have hX' : 0 < |X| := lt_of_lt_of_le (by positivity) (not_lt.1 hX)
        refine ⟨α / |X|, by positivity, ?_, ?_, hreach (abs_pos.1 hX')⟩
        · rw [div_le_one hX']
          linarith
        · rw [div_mul_cancel₀ _ hX'.ne']
          exact hα1
    obtain ⟨T, hT0, hT1, hTX, hTf⟩ := hT
    obtain ⟨t, ht, hte⟩ := intermediate_value_Icc hT0 (hcont T hT0 hTX)
      (show (1 - q ^ 2 : ℝ) ∈ Set.Icc _ _ from ⟨by simpa using hf2.le, hTf⟩)
    simp only at hte
    have htX : |t * X| < π / 2 := by
      rw [abs_mul, abs_of_nonneg ht.1]
      exact (mul_le_mul_of_nonneg_right ht.2 (abs_nonneg X)).trans_lt hTX
    obtain ⟨hv, hs⟩ := sieFrame_edge hq1 hq htX hte
    have h1 := hin _ hv
    have h2 := sieFrame_pos hq hq1 hv
    rw [hs] at h1 h2
    have e : (⟨t * X, t * Y⟩ : ℂ) = (t : ℂ) * ⟨X, Y⟩ := by apply Complex.ext <;> simp
    rw [e, mul_assoc, Complex.re_ofReal_mul] at h1 h2
    have ht1 : t ≤ 1 := ht.2.trans hT1
    have ht0 : 0 < t := lt_of_le_of_ne ht.1 fun h => by rw [← h, zero_mul] at h2; exact lt_irrefl _ h2
    have h3 := (mul_pos_iff_of_pos_left ht0).1 h2
    nlinarith
  · rintro ⟨hX, hlt⟩ v hv
    by_cases h0 : (⟨X, Y⟩ : ℂ) = 0
    · rw [h0, zero_mul, Complex.zero_re]
      exact sieFrame_pos hq hq1 hv
    have hXα : |X| < α := by
      have h1 : q ^ 2 * tan |X| ^ 2 < q ^ 2 * tan α ^ 2 := by
        have := habs 1
        rw [one_mul, one_mul] at this
        rw [this, htan]
        linarith [sq_nonneg (tanh Y)]
      have h2 : tan |X| ^ 2 < tan α ^ 2 := lt_of_mul_lt_mul_left h1 (sq_nonneg q)
      have h3 : 0 ≤ tan α := tan_nonneg_of_nonneg_of_le_pi_div_two hα0.le hα1.le
      have h4 := lt_of_pow_lt_pow_left₀ 2 h3 h2
      by_contra h5
      push Not at h5
      rcases h5.eq_or_lt with h6 | h6
      · rw [h6] at h4
        exact lt_irrefl _ h4
      · exact lt_asymm h4 (tan_lt_tan_of_lt_of_lt_pi_div_two (by linarith [pi_pos]) hX h6)
    have hT : ∃ T : ℝ, 1 ≤ T ∧ T * |X| < π / 2 ∧ 1 - q ^ 2 ≤ q ^ 2 * tan (T * X) ^ 2 + tanh (T * Y) ^ 2 := by
      by_cases hX0 : X = 0
      · have hY0 : Y ≠ 0 := fun h => h0 (by rw [hX0, h]; rfl)
        have hYp : 0 < |Y| := abs_pos.2 hY0
        have hfm : f ∈ Set.Ioo (-1 : ℝ) 1 := ⟨by linarith, hf1⟩
        have habs' : ∀ t : ℝ, tanh (t * |Y|) ^ 2 = tanh (t * Y) ^ 2 := by
          intro t
          rcases abs_cases Y with ⟨h, -⟩ | ⟨h, -⟩
          · rw [h]
          · rw [h, mul_neg, tanh_neg, neg_sq]
        refine ⟨artanh f / |Y|, ?_, ?_, ?_⟩
        · rw [one_le_div hYp]
          have h1 : tanh |Y| ^ 2 < f ^ 2 := by
            have := habs' 1
            rw [one_mul, one_mul] at this
            rw [this, hff]
            have := mul_nonneg (sq_nonneg q) (sq_nonneg (tan X))
            linarith
          have h2 := lt_of_pow_lt_pow_left₀ 2 hf.le h1
          have h3 := artanh_le_artanh (neg_one_lt_tanh |Y|) hf1 h2.le
          rwa [artanh_tanh] at h3
        · rw [hX0, abs_zero, mul_zero]
          positivity
        · rw [hX0, mul_zero, tan_zero, ← habs', div_mul_cancel₀ _ hYp.ne', tanh_artanh hfm, hff]
          norm_num
      · have hXp : 0 < |X| := abs_pos.2 hX0
        refine ⟨α / |X|, ?_, ?_, hreach hX0⟩
        · rw [one_le_div hXp]
          exact hXα.le
        · rw [div_mul_cancel₀ _ hXp.ne']
          exact hα1
    obtain ⟨T, hT1, hTX, hTf⟩ := hT
    obtain ⟨t, ht, hte⟩ := intermediate_value_Icc hT1
      ((hcont T (zero_le_one.trans hT1) hTX).mono (Set.Icc_subset_Icc_left zero_le_one))
      (show (1 - q ^ 2 : ℝ) ∈ Set.Icc _ _ from ⟨by simpa using hlt.le, hTf⟩)
    simp only at hte
    have htX : |t * X| < π / 2 := by
      rw [abs_mul, abs_of_nonneg (zero_le_one.trans ht.1)]
      exact (mul_le_mul_of_nonneg_right ht.2 (abs_nonneg X)).trans_lt hTX
    obtain ⟨hu, hs⟩ := sieFrame_edge hq1 hq htX hte
    have h1 := sieFrame_support hq hq1 hv hu
    have h2 := sieFrame_pos hq hq1 hv
    have e : (⟨t * X, t * Y⟩ : ℂ) = (t : ℂ) * ⟨X, Y⟩ := by apply Complex.ext <;> simp
    rw [hs, e, mul_assoc, Complex.re_ofReal_mul] at h1
    have ht1 : 1 < t := lt_of_le_of_ne ht.1 fun h => by
      rw [← h, one_mul, one_mul] at hte
      exact hlt.ne hte
    rcases le_or_gt ((⟨X, Y⟩ : ℂ) * conj v).re 0 with h3 | h3
    · exact lt_of_le_of_lt h3 h2
    · nlinarith

end

end Caustics

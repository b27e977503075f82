import Verif.Props.Images
import Verif.Props.SersicFlux
import Mathlib.MeasureTheory.Function.Jacobian

/-! C85: the flux observed from a source behind a lens. -/

open Real MeasureTheory Set

namespace Caustics

theorem hasJac_fderiv {β : ℝ → ℝ → ℝ × ℝ} {a b c d x y : ℝ} (h : HasJac β a b c d x y) :
    ∃ L : ℝ × ℝ →L[ℝ] ℝ × ℝ, HasFDerivAt (fun p : ℝ × ℝ => β p.1 p.2) L (x, y) ∧ L.det = a * d - b * c := by
  refine ⟨_, h.1.prodMk h.2, ?_⟩
  rw [ContinuousLinearMap.det]
  have : (((ContinuousLinearMap.fst ℝ ℝ ℝ).smulRight a + (ContinuousLinearMap.snd ℝ ℝ ℝ).smulRight b).prod
      ((ContinuousLinearMap.fst ℝ ℝ ℝ).smulRight c + (ContinuousLinearMap.snd ℝ ℝ ℝ).smulRight d) : ℝ × ℝ →ₗ[ℝ] ℝ × ℝ)
      = Matrix.toLin (.finTwoProd ℝ) (.finTwoProd ℝ) !![a, b; c, d] := by
    apply LinearMap.ext
    intro p
    rw [Matrix.toLin_finTwoProd_apply]
    simp [mul_comm]
  rw [this, LinearMap.det_toLin, Matrix.det_fin_two_of]

/-- Surface brightness is conserved, so that on a region that the lens maps one to one, each piece of
the image divided by its magnification adds up to the flux of the part of the source behind it. -/
theorem C85_region {β : ℝ → ℝ → ℝ × ℝ} {U : Set (ℝ × ℝ)} (hU : MeasurableSet U) {M : ℝ × ℝ → M22 ℝ}
    (hM : ∀ p ∈ U, HasJac β (M p).a00 (M p).a01 (M p).a10 (M p).a11 p.1 p.2)
    (hinj : ∀ p ∈ U, ∀ p' ∈ U, β p.1 p.2 = β p'.1 p'.2 → p = p') (S : ℝ × ℝ → ENNReal) :
    ∫⁻ p in U, S (β p.1 p.2) * ENNReal.ofReal (1 / pixelMagnification (M p))
      = ∫⁻ b in (fun p => β p.1 p.2) '' U, S b := by
  choose! L hL hdet using fun p (hp : p ∈ U) => hasJac_fderiv (hM p hp)
  rw [lintegral_image_eq_lintegral_abs_det_fderiv_mul volume hU (fun p hp => (hL p hp).hasFDerivWithinAt)
    (fun p hp p' hp' h => hinj p hp p' hp' h) S]
  refine setLIntegral_congr_fun hU fun p hp => ?_
  simp only [hdet p hp, pixelMagnification, one_div_one_div]
  rw [mul_comm]

theorem lens_flux_piece {β : ℝ → ℝ → ℝ × ℝ} {U V : Set (ℝ × ℝ)} (hU : MeasurableSet U) {M : ℝ × ℝ → M22 ℝ}
    (hM : ∀ p ∈ U, HasJac β (M p).a00 (M p).a01 (M p).a10 (M p).a11 p.1 p.2)
    (hinj : ∀ p ∈ U, ∀ p' ∈ U, β p.1 p.2 = β p'.1 p'.2 → p = p')
    (hV : (fun p => β p.1 p.2) '' U = V) {m : ℝ × ℝ → ℝ}
    (hm : ∀ p ∈ U, 1 / pixelMagnification (M p) * m (β p.1 p.2) = 1) (S : ℝ × ℝ → ENNReal) :
    ∫⁻ p in U, S (β p.1 p.2) = ∫⁻ b in V, S b * ENNReal.ofReal (m b) := by
  rw [← hV, ← C85_region hU hM hinj (fun b => S b * ENNReal.ofReal (m b))]
  refine setLIntegral_congr_fun hU fun p hp => ?_
  have h0 : 0 ≤ 1 / pixelMagnification (M p) := by
    rw [pixelMagnification, one_div_one_div]; exact abs_nonneg _
  have h : ENNReal.ofReal (m (β p.1 p.2)) * ENNReal.ofReal (1 / pixelMagnification (M p)) = 1 := by
    rw [mul_comm, ← ENNReal.ofReal_mul h0, hm p hp, ENNReal.ofReal_one]
  simp only [mul_assoc, h, mul_one]

/-- The ray traced through a lens with deflection `α`. -/
def rayOf (α : ℝ → ℝ → ℝ × ℝ) (x y : ℝ) : ℝ × ℝ := (x - (α x y).1, y - (α x y).2)

theorem rayOf_jac {α : ℝ → ℝ → ℝ × ℝ} {a b c d x y : ℝ} (h : HasJac α a b c d x y) :
    ∃ M : M22 ℝ, HasJac (rayOf α) M.a00 M.a01 M.a10 M.a11 x y :=
  ⟨⟨_, _, _, _⟩, ⟨(HasGrad.fst x y).sub h.1, (HasGrad.snd x y).sub h.2⟩⟩

theorem compl_singleton_ae (c : ℝ × ℝ) : ({c}ᶜ : Set (ℝ × ℝ)) =ᵐ[volume] univ := by
  rw [ae_eq_univ, compl_compl]
  simp

/-! ### Singular isothermal sphere -/

theorem sis_ray_ne {x0 y0 Rein x y : ℝ} (h : (x, y) ≠ (x0, y0)) :
    raytraceOpt (sisDeflectionOpt x0 y0 Rein 0) x y = some (rayOf (sisDeflection x0 y0 Rein 0) x y) := by
  have h' := sub_ne_zero_pair h
  have hr := radius_pos h'
  rw [raytraceOpt, sisDeflectionOpt_eq (Rein := Rein) (s := 0) (by rw [add_zero]; exact hr.ne')]
  rfl

theorem sis_jac {x0 y0 Rein x y : ℝ} (h : (x, y) ≠ (x0, y0)) :
    ∃ M : M22 ℝ, HasJac (rayOf (sisDeflection x0 y0 Rein 0)) M.a00 M.a01 M.a10 M.a11 x y ∧
      1 / pixelMagnification M = |1 - Rein / √((x - x0) ^ 2 + (y - y0) ^ 2)| := by
  have hj := hasJac_shift (x0 := x0) (y0 := y0) (hasJac_radial (sub_ne_zero_pair h) (hasDerivAt_const _ Rein))
  have e : sisDeflection x0 y0 Rein 0 = fun x y => ((fun _ => Rein) (√((x - x0) ^ 2 + (y - y0) ^ 2)) * (x - x0)
      / √((x - x0) ^ 2 + (y - y0) ^ 2), (fun _ => Rein) (√((x - x0) ^ 2 + (y - y0) ^ 2)) * (y - y0) / √((x - x0) ^ 2 + (y - y0) ^ 2)) := by
    funext x y
    simp [sisDeflection, translateRotate]
  rw [← e] at hj
  obtain ⟨M, hM⟩ := rayOf_jac hj
  exact ⟨M, hM, by rw [sis_magnification h hM, one_div_one_div]⟩

/-- Where the ray of an SIS meets the source plane. -/
theorem sis_ray_rad {x0 y0 Rein x y : ℝ} (h : (x, y) ≠ (x0, y0)) :
    let r := √((x - x0) ^ 2 + (y - y0) ^ 2)
    let b := rayOf (sisDeflection x0 y0 Rein 0) x y
    b.1 - x0 = (1 - Rein / r) * (x - x0) ∧ b.2 - y0 = (1 - Rein / r) * (y - y0) ∧
      √((b.1 - x0) ^ 2 + (b.2 - y0) ^ 2) = |r - Rein| := by
  intro r b
  have hr : 0 < r := radius_pos (sub_ne_zero_pair h)
  have e1 : b.1 - x0 = (1 - Rein / r) * (x - x0) := by
    simp only [b, rayOf, sisDeflection, translateRotate, add_zero]
    change x - Rein * (x - x0) / r - x0 = _
    ring
  have e2 : b.2 - y0 = (1 - Rein / r) * (y - y0) := by
    simp only [b, rayOf, sisDeflection, translateRotate, add_zero]
    change y - Rein * (y - y0) / r - y0 = _
    ring
  refine ⟨e1, e2, ?_⟩
  rw [e1, e2, mul_pow, mul_pow, ← mul_add, sqrt_mul (sq_nonneg _), sqrt_sq_eq_abs]
  change |1 - Rein / r| * r = _
  rw [← abs_of_pos hr, ← abs_mul, abs_of_pos hr]
  congr 1
  field_simp

/-- A source of any brightness behind a singular isothermal sphere.  What is seen outside the Einstein
ring is the source with each point `b` magnified by `1 + Rein / |b|`; what is seen inside it is the part
of the source within `Rein`, magnified by `Rein / |b| - 1`. -/
theorem C85_sis (x0 y0 Rein : ℝ) (hR : 0 < Rein) (S : ℝ × ℝ → ENNReal) :
    let rad := fun p : ℝ × ℝ => √((p.1 - x0) ^ 2 + (p.2 - y0) ^ 2)
    (∫⁻ p in {p | Rein < rad p}, S (rayOf (sisDeflection x0 y0 Rein 0) p.1 p.2)
      = ∫⁻ b, S b * ENNReal.ofReal (1 + Rein / rad b)) ∧
    ∫⁻ p in {p | rad p < Rein}, S (rayOf (sisDeflection x0 y0 Rein 0) p.1 p.2)
      = ∫⁻ b in {b | rad b < Rein}, S b * ENNReal.ofReal (Rein / rad b - 1) := by
  intro rad
  have hcont : Continuous rad := by simp only [rad]; fun_prop
  have hrad0 : ∀ p : ℝ × ℝ, rad p = 0 ↔ p = (x0, y0) := by
    intro p
    constructor
    · intro h
      by_contra hc
      have := radius_pos (sub_ne_zero_pair (bx := p.1) (bys := p.2) hc)
      exact this.ne' h
    · rintro rfl
      simp [rad]
  have hne : ∀ p : ℝ × ℝ, 0 < rad p → (p.1, p.2) ≠ (x0, y0) := by
    intro p hp h
    have : rad p = 0 := (hrad0 p).2 h
    linarith
  have hray : ∀ p : ℝ × ℝ, 0 < rad p → rad (rayOf (sisDeflection x0 y0 Rein 0) p.1 p.2) = |rad p - Rein| :=
    fun p hp => (sis_ray_rad (hne p hp)).2.2
  have hsolve : ∀ p : ℝ × ℝ, 0 < rad p → rad p ≠ Rein →
      let b := rayOf (sisDeflection x0 y0 Rein 0) p.1 p.2
      (p = (x0 + (1 + Rein / rad b) * (b.1 - x0), y0 + (1 + Rein / rad b) * (b.2 - y0)) ∨
        (rad b < Rein ∧ p = (x0 + (1 - Rein / rad b) * (b.1 - x0), y0 + (1 - Rein / rad b) * (b.2 - y0)))) := by
    intro p hp hpR b
    have hb : (b.1, b.2) ≠ (x0, y0) := by
      intro h
      have h0 : rad b = 0 := (hrad0 b).2 h
      rw [hray p hp, abs_eq_zero, sub_eq_zero] at h0
      exact hpR h0
    exact (C78_sis x0 y0 Rein b.1 b.2 p.1 p.2 hR hb).1 (sis_ray_ne (hne p hp))
  have hline : ∀ (b : ℝ × ℝ) (k : ℝ), rad (x0 + k * (b.1 - x0), y0 + k * (b.2 - y0)) = |k| * rad b :=
    fun b k => line_dist x0 y0 b.1 b.2 k
  have : Nonempty (M22 ℝ) := ⟨⟨0, 0, 0, 0⟩⟩
  choose! M hM hdet using fun (p : ℝ × ℝ) (hp : (p.1, p.2) ≠ (x0, y0)) => sis_jac (Rein := Rein) hp
  constructor
  · have hU : MeasurableSet {p | Rein < rad p} := measurableSet_lt measurable_const hcont.measurable
    have hpos : ∀ p ∈ {p | Rein < rad p}, 0 < rad p := fun p hp => hR.trans hp
    have hplus : ∀ p ∈ {p | Rein < rad p}, let b := rayOf (sisDeflection x0 y0 Rein 0) p.1 p.2
        p = (x0 + (1 + Rein / rad b) * (b.1 - x0), y0 + (1 + Rein / rad b) * (b.2 - y0)) := by
      intro p hp b
      have hp' : Rein < rad p := hp
      rcases hsolve p (hpos p hp) hp'.ne' with h | ⟨h1, h2⟩
      · exact h
      · exfalso
        have hrb : rad b = rad p - Rein := by
          rw [hray p (hpos p hp), abs_of_pos (by linarith)]
        have hb0 : 0 < rad b := by linarith
        have := hline b (1 - Rein / rad b)
        rw [← h2, abs_of_nonpos] at this
        · rw [neg_sub, sub_mul, div_mul_cancel₀ _ hb0.ne'] at this
          linarith
        · rw [sub_nonpos, le_div_iff₀ hb0]; linarith
    have himg : (fun p : ℝ × ℝ => rayOf (sisDeflection x0 y0 Rein 0) p.1 p.2) '' {p | Rein < rad p} = {(x0, y0)}ᶜ := by
      ext b
      constructor
      · rintro ⟨p, hp, rfl⟩
        have hp' : Rein < rad p := hp
        intro h
        have h0 := (hrad0 _).2 h
        simp only at h0
        rw [hray p (hpos p hp), abs_of_pos (by linarith)] at h0
        linarith
      · intro hb
        have hb : b ≠ (x0, y0) := hb
        have hb0 : 0 < rad b := lt_of_le_of_ne (sqrt_nonneg _) fun h => hb ((hrad0 b).1 h.symm)
        refine ⟨(x0 + (1 + Rein / rad b) * (b.1 - x0), y0 + (1 + Rein / rad b) * (b.2 - y0)), ?_, ?_⟩
        · have : rad (x0 + (1 + Rein / rad b) * (b.1 - x0), y0 + (1 + Rein / rad b) * (b.2 - y0)) = rad b + Rein := by
            rw [hline, abs_of_pos (by positivity), add_mul, div_mul_cancel₀ _ hb0.ne', one_mul]
          change Rein < rad _
          rw [this]
          linarith
        · have h := (C78_sis x0 y0 Rein b.1 b.2 _ _ hR hb).2 (.inl rfl)
          rw [sis_ray_ne (line_ne hb (by positivity))] at h
          exact Option.some.inj h
    rw [lens_flux_piece (m := fun b => 1 + Rein / rad b) hU (fun p hp => hM p (hne p (hpos p hp))) ?_ himg ?_ S,
      setLIntegral_congr (compl_singleton_ae _), setLIntegral_univ]
    · intro p hp p' hp' h
      rw [hplus p hp, hplus p' hp', h]
    · intro p hp
      have hp' : Rein < rad p := hp
      have hp0 := hpos p hp
      rw [hdet p (hne p hp0), hray p hp0, abs_of_pos (by linarith : 0 < rad p - Rein)]
      have h1 : 0 < 1 - Rein / rad p := by rw [sub_pos, div_lt_one hp0]; exact hp'
      change |1 - Rein / rad p| * _ = 1
      rw [abs_of_pos h1]
      have : rad p - Rein ≠ 0 := by linarith
      field_simp
      ring
  · have key : ∀ (F : ℝ × ℝ → ENNReal), ∫⁻ p in {p | rad p < Rein}, F p = ∫⁻ p in {p | 0 < rad p ∧ rad p < Rein}, F p := by
      intro F
      apply setLIntegral_congr
      have h := (compl_singleton_ae (x0, y0)).inter (ae_eq_refl {p : ℝ × ℝ | rad p < Rein})
      rw [univ_inter] at h
      refine h.symm.trans (Filter.Eventually.of_forall fun p => ?_)
      have : 0 < rad p ↔ p ≠ (x0, y0) := by
        rw [ne_eq, ← hrad0]
        exact ⟨fun h => h.ne', fun h => lt_of_le_of_ne (sqrt_nonneg _) (Ne.symm h)⟩
      apply propext
      change (p ∈ {(x0, y0)}ᶜ ∧ rad p < Rein) ↔ (0 < rad p ∧ rad p < Rein)
      rw [this]
      rfl
    rw [key, key]
    have hU : MeasurableSet {p | 0 < rad p ∧ rad p < Rein} :=
      (measurableSet_lt measurable_const hcont.measurable).inter (measurableSet_lt hcont.measurable measurable_const)
    have hminus : ∀ p ∈ {p | 0 < rad p ∧ rad p < Rein}, let b := rayOf (sisDeflection x0 y0 Rein 0) p.1 p.2
        p = (x0 + (1 - Rein / rad b) * (b.1 - x0), y0 + (1 - Rein / rad b) * (b.2 - y0)) := by
      intro p hp b
      have hp' : rad p < Rein := hp.2
      rcases hsolve p hp.1 hp'.ne with h | ⟨-, h2⟩
      · exfalso
        have hrb : rad b = Rein - rad p := by
          rw [hray p hp.1, abs_of_neg (by linarith)]; ring
        have hb0 : 0 < rad b := by linarith
        have := hline b (1 + Rein / rad b)
        rw [← h, abs_of_pos (by positivity), add_mul, div_mul_cancel₀ _ hb0.ne'] at this
        linarith
      · exact h2
    have himg : (fun p : ℝ × ℝ => rayOf (sisDeflection x0 y0 Rein 0) p.1 p.2) '' {p | 0 < rad p ∧ rad p < Rein}
        = {p | 0 < rad p ∧ rad p < Rein} := by
      ext b
      constructor
      · rintro ⟨p, hp, rfl⟩
        change 0 < rad _ ∧ rad _ < Rein
        rw [hray p hp.1, abs_of_neg (by linarith [hp.2])]
        constructor <;> linarith [hp.1, hp.2]
      · intro hb
        have hb0 := hb.1
        have hbR := hb.2
        have hb' : (b.1, b.2) ≠ (x0, y0) := hne b hb0
        have hk : 1 - Rein / rad b < 0 := by rw [sub_neg, one_lt_div hb0]; exact hbR
        refine ⟨(x0 + (1 - Rein / rad b) * (b.1 - x0), y0 + (1 - Rein / rad b) * (b.2 - y0)), ?_, ?_⟩
        · have : rad (x0 + (1 - Rein / rad b) * (b.1 - x0), y0 + (1 - Rein / rad b) * (b.2 - y0)) = Rein - rad b := by
            rw [hline, abs_of_neg hk, neg_sub, sub_mul, div_mul_cancel₀ _ hb0.ne', one_mul]
          change 0 < rad _ ∧ rad _ < Rein
          rw [this]
          constructor <;> linarith
        · have h := (C78_sis x0 y0 Rein b.1 b.2 _ _ hR hb').2 (.inr ⟨hbR, rfl⟩)
          rw [sis_ray_ne (line_ne hb' hk.ne)] at h
          exact Option.some.inj h
    refine lens_flux_piece (m := fun b => Rein / rad b - 1) hU (fun p hp => hM p (hne p hp.1)) ?_ himg ?_ S
    · intro p hp p' hp' h
      rw [hminus p hp, hminus p' hp', h]
    · intro p hp
      have hp0 := hp.1
      have hpR := hp.2
      rw [hdet p (hne p hp0), hray p hp0, abs_of_neg (by linarith : rad p - Rein < 0)]
      have h1 : 1 - Rein / rad p < 0 := by rw [sub_neg, one_lt_div hp0]; exact hpR
      change |1 - Rein / rad p| * _ = 1
      rw [abs_of_neg h1]
      generalize rad p = r at *
      have h3 : Rein - r ≠ 0 := by linarith
      rw [show -(1 - Rein / r) = (Rein - r) / r by field_simp; ring,
        show Rein / -(r - Rein) - 1 = r / (Rein - r) by rw [neg_sub]; field_simp; ring]
      field_simp

/-- The two together: the observed flux is the flux of the source with each point magnified by the sum
over its images, `2 Rein / |b|` inside the Einstein radius and `1 + Rein / |b|` outside. -/
theorem C85_sis_total (x0 y0 Rein : ℝ) (hR : 0 < Rein) {S : ℝ × ℝ → ENNReal} (hS : Measurable S) :
    let rad := fun p : ℝ × ℝ => √((p.1 - x0) ^ 2 + (p.2 - y0) ^ 2)
    ∫⁻ p in {p | rad p ≠ Rein}, S (rayOf (sisDeflection x0 y0 Rein 0) p.1 p.2)
      = ∫⁻ b, S b * ENNReal.ofReal (if rad b < Rein then 2 * (Rein / rad b) else 1 + Rein / rad b) := by
  intro rad
  obtain ⟨h1, h2⟩ := C85_sis x0 y0 Rein hR S
  have hcont : Continuous rad := by simp only [rad]; fun_prop
  have hm1 : MeasurableSet {p | rad p < Rein} := measurableSet_lt hcont.measurable measurable_const
  have hm2 : MeasurableSet {p | Rein < rad p} := measurableSet_lt measurable_const hcont.measurable
  have hsplit : {p | rad p ≠ Rein} = {p | Rein < rad p} ∪ {p | rad p < Rein} := by
    ext p
    change rad p ≠ Rein ↔ Rein < rad p ∨ rad p < Rein
    rw [or_comm, lt_or_lt_iff_ne]
  have hdis : Disjoint {p | Rein < rad p} {p | rad p < Rein} := by
    rw [Set.disjoint_left]
    intro p (hp : Rein < rad p) (hp' : rad p < Rein)
    linarith
  rw [hsplit, lintegral_union hm1 hdis]
  have e2 : ∫⁻ p in {p | rad p < Rein}, S (rayOf (sisDeflection x0 y0 Rein 0) p.1 p.2)
      = ∫⁻ b, {b | rad b < Rein}.indicator (fun b => S b * ENNReal.ofReal (Rein / rad b - 1)) b := by
    rw [lintegral_indicator hm1]; exact h2
  have hmr : Measurable fun b => S b * ENNReal.ofReal (1 + Rein / rad b) :=
    hS.mul (ENNReal.measurable_ofReal.comp (measurable_const.add (measurable_const.div hcont.measurable)))
  have e1 : ∫⁻ p in {p | Rein < rad p}, S (rayOf (sisDeflection x0 y0 Rein 0) p.1 p.2)
      = ∫⁻ b, S b * ENNReal.ofReal (1 + Rein / rad b) := h1
  rw [e1, e2, ← lintegral_add_left hmr]
  have hae : ∀ᵐ b : ℝ × ℝ, b ≠ (x0, y0) := by
    have := (compl_singleton_ae (x0, y0))
    rw [ae_eq_univ] at this
    rw [ae_iff]
    simp
  refine lintegral_congr_ae ?_
  filter_upwards [hae] with b hb
  have hr : 0 < rad b := radius_pos (sub_ne_zero_pair (bx := b.1) (bys := b.2) hb)
  by_cases h : rad b < Rein
  · have hin : b ∈ {b | rad b < Rein} := h
    rw [indicator_of_mem hin, if_pos h, ← mul_add, ← ENNReal.ofReal_add (by positivity)]
    · congr 2; ring
    · rw [sub_nonneg, one_le_div hr]; exact h.le
  · have hin : b ∉ {b | rad b < Rein} := h
    rw [indicator_of_notMem hin, if_neg h, add_zero]

/-! ### Point mass -/

theorem point_ray_ne {x0 y0 Rein x y : ℝ} (h : (x, y) ≠ (x0, y0)) :
    raytraceOpt (pointDeflectionOpt x0 y0 Rein 0) x y = some (rayOf (pointDeflection x0 y0 Rein 0) x y) := by
  have h' := sub_ne_zero_pair h
  have hr := radius_pos h'
  rw [raytraceOpt, pointDeflectionOpt_eq (Rein := Rein) (s := 0) (by rw [add_zero]; exact hr.ne')]
  rfl

theorem point_jac {x0 y0 Rein x y : ℝ} (h : (x, y) ≠ (x0, y0)) :
    ∃ M : M22 ℝ, HasJac (rayOf (pointDeflection x0 y0 Rein 0)) M.a00 M.a01 M.a10 M.a11 x y ∧
      1 / pixelMagnification M = |1 - (Rein / √((x - x0) ^ 2 + (y - y0) ^ 2)) ^ 4| := by
  have hr := radius_pos (sub_ne_zero_pair h)
  have hd : HasDerivAt (fun r => Rein ^ 2 / r) (-(Rein ^ 2) / (√((x - x0) ^ 2 + (y - y0) ^ 2)) ^ 2)
      (√((x - x0) ^ 2 + (y - y0) ^ 2)) := by
    refine ((hasDerivAt_const _ (Rein ^ 2)).div (hasDerivAt_id _) hr.ne').congr_deriv ?_
    simp
  have hj := hasJac_shift (x0 := x0) (y0 := y0) (hasJac_radial (sub_ne_zero_pair h) hd)
  have e : pointDeflection x0 y0 Rein 0 = fun x y => ((fun r => Rein ^ 2 / r) (√((x - x0) ^ 2 + (y - y0) ^ 2)) * (x - x0)
      / √((x - x0) ^ 2 + (y - y0) ^ 2), (fun r => Rein ^ 2 / r) (√((x - x0) ^ 2 + (y - y0) ^ 2)) * (y - y0) / √((x - x0) ^ 2 + (y - y0) ^ 2)) := by
    funext x y
    simp only [pointDeflection, translateRotate, add_zero]
    ext <;> simp only <;> ring
  rw [← e] at hj
  obtain ⟨M, hM⟩ := rayOf_jac hj
  exact ⟨M, hM, by rw [point_magnification h hM, one_div_one_div]⟩

theorem point_ray_rad {x0 y0 Rein x y : ℝ} (h : (x, y) ≠ (x0, y0)) :
    let r := √((x - x0) ^ 2 + (y - y0) ^ 2)
    let b := rayOf (pointDeflection x0 y0 Rein 0) x y
    √((b.1 - x0) ^ 2 + (b.2 - y0) ^ 2) = |r - Rein ^ 2 / r| := by
  intro r b
  have hr : 0 < r := radius_pos (sub_ne_zero_pair h)
  have e1 : b.1 - x0 = (1 - Rein ^ 2 / r ^ 2) * (x - x0) := by
    simp only [b, rayOf, pointDeflection, translateRotate, add_zero]
    change x - (x - x0) * Rein ^ 2 / r ^ 2 - x0 = _
    ring
  have e2 : b.2 - y0 = (1 - Rein ^ 2 / r ^ 2) * (y - y0) := by
    simp only [b, rayOf, pointDeflection, translateRotate, add_zero]
    change y - (y - y0) * Rein ^ 2 / r ^ 2 - y0 = _
    ring
  rw [e1, e2, mul_pow, mul_pow, ← mul_add, sqrt_mul (sq_nonneg _), sqrt_sq_eq_abs]
  change |1 - Rein ^ 2 / r ^ 2| * r = _
  rw [← abs_of_pos hr, ← abs_mul, abs_of_pos hr]
  congr 1
  field_simp

/-- A source of any brightness behind a point mass: the image outside the Einstein ring magnifies each
point `b` of the source by `((b² + 2 Rein²) / (b w) + 1) / 2`, the one inside by
`((b² + 2 Rein²) / (b w) - 1) / 2`, where `w = sqrt (b² + 4 Rein²)`. -/
theorem C85_point (x0 y0 Rein : ℝ) (hR : 0 < Rein) (S : ℝ × ℝ → ENNReal) :
    let rad := fun p : ℝ × ℝ => √((p.1 - x0) ^ 2 + (p.2 - y0) ^ 2)
    let A := fun b : ℝ × ℝ => (rad b ^ 2 + 2 * Rein ^ 2) / (rad b * √(rad b ^ 2 + 4 * Rein ^ 2))
    (∫⁻ p in {p | Rein < rad p}, S (rayOf (pointDeflection x0 y0 Rein 0) p.1 p.2)
      = ∫⁻ b, S b * ENNReal.ofReal ((A b + 1) / 2)) ∧
    ∫⁻ p in {p | rad p < Rein}, S (rayOf (pointDeflection x0 y0 Rein 0) p.1 p.2)
      = ∫⁻ b, S b * ENNReal.ofReal ((A b - 1) / 2) := by
  intro rad A
  have hcont : Continuous rad := by simp only [rad]; fun_prop
  have hrad0 : ∀ p : ℝ × ℝ, rad p = 0 ↔ p = (x0, y0) := by
    intro p
    constructor
    · intro h
      by_contra hc
      have := radius_pos (sub_ne_zero_pair (bx := p.1) (bys := p.2) hc)
      exact this.ne' h
    · rintro rfl
      simp [rad]
  have hne : ∀ p : ℝ × ℝ, 0 < rad p → (p.1, p.2) ≠ (x0, y0) := by
    intro p hp h
    have : rad p = 0 := (hrad0 p).2 h
    linarith
  have hray : ∀ p : ℝ × ℝ, 0 < rad p → rad (rayOf (pointDeflection x0 y0 Rein 0) p.1 p.2) = |rad p - Rein ^ 2 / rad p| :=
    fun p hp => point_ray_rad (hne p hp)
  have hw : ∀ b : ℝ × ℝ, 0 < rad b → 2 * Rein < √(rad b ^ 2 + 4 * Rein ^ 2) ∧ rad b < √(rad b ^ 2 + 4 * Rein ^ 2) ∧
      √(rad b ^ 2 + 4 * Rein ^ 2) < rad b + 2 * Rein := by
    intro b hb
    refine ⟨?_, ?_, ?_⟩
    · rw [lt_sqrt (by positivity)]; nlinarith
    · rw [lt_sqrt hb.le]; nlinarith
    · rw [sqrt_lt' (by positivity)]; nlinarith
  have hb0 : ∀ p : ℝ × ℝ, 0 < rad p → rad p ≠ Rein → 0 < rad (rayOf (pointDeflection x0 y0 Rein 0) p.1 p.2) := by
    intro p hp hpR
    rw [hray p hp, abs_pos]
    intro h
    rw [sub_eq_zero, eq_div_iff hp.ne'] at h
    exact hpR (by nlinarith)
  have hsolve : ∀ p : ℝ × ℝ, 0 < rad p → rad p ≠ Rein →
      let b := rayOf (pointDeflection x0 y0 Rein 0) p.1 p.2
      let w := √(rad b ^ 2 + 4 * Rein ^ 2)
      (p = (x0 + (1 + w / rad b) / 2 * (b.1 - x0), y0 + (1 + w / rad b) / 2 * (b.2 - y0)) ∨
       p = (x0 + (1 - w / rad b) / 2 * (b.1 - x0), y0 + (1 - w / rad b) / 2 * (b.2 - y0))) := by
    intro p hp hpR b w
    exact (C78_point x0 y0 Rein b.1 b.2 p.1 p.2 hR (hne b (hb0 p hp hpR))).1 (point_ray_ne (hne p hp))
  have hline : ∀ (b : ℝ × ℝ) (k : ℝ), rad (x0 + k * (b.1 - x0), y0 + k * (b.2 - y0)) = |k| * rad b :=
    fun b k => line_dist x0 y0 b.1 b.2 k
  have hplusr : ∀ b : ℝ × ℝ, 0 < rad b → rad (x0 + (1 + √(rad b ^ 2 + 4 * Rein ^ 2) / rad b) / 2 * (b.1 - x0),
      y0 + (1 + √(rad b ^ 2 + 4 * Rein ^ 2) / rad b) / 2 * (b.2 - y0)) = (√(rad b ^ 2 + 4 * Rein ^ 2) + rad b) / 2 := by
    intro b hb
    rw [hline, abs_of_pos (by positivity)]
    field_simp
    ring
  have hminr : ∀ b : ℝ × ℝ, 0 < rad b → rad (x0 + (1 - √(rad b ^ 2 + 4 * Rein ^ 2) / rad b) / 2 * (b.1 - x0),
      y0 + (1 - √(rad b ^ 2 + 4 * Rein ^ 2) / rad b) / 2 * (b.2 - y0)) = (√(rad b ^ 2 + 4 * Rein ^ 2) - rad b) / 2 := by
    intro b hb
    have h1 : 1 - √(rad b ^ 2 + 4 * Rein ^ 2) / rad b < 0 := by
      rw [sub_neg, one_lt_div hb]; exact (hw b hb).2.1
    rw [hline, abs_of_neg (by linarith)]
    field_simp
    ring
  have hW : ∀ p : ℝ × ℝ, 0 < rad p →
      √(rad (rayOf (pointDeflection x0 y0 Rein 0) p.1 p.2) ^ 2 + 4 * Rein ^ 2) = rad p + Rein ^ 2 / rad p := by
    intro p hp
    rw [hray p hp, sq_abs, ← sqrt_sq (by positivity : 0 ≤ rad p + Rein ^ 2 / rad p)]
    congr 1
    field_simp
    ring
  have : Nonempty (M22 ℝ) := ⟨⟨0, 0, 0, 0⟩⟩
  choose! M hM hdet using fun (p : ℝ × ℝ) (hp : (p.1, p.2) ≠ (x0, y0)) => point_jac (Rein := Rein) hp
  have hfin : ∀ (T : ℝ × ℝ → ENNReal), ∫⁻ b in {(x0, y0)}ᶜ, T b = ∫⁻ b, T b := by
    intro T
    rw [setLIntegral_congr (compl_singleton_ae _), setLIntegral_univ]
  have hcompl : ∀ b : ℝ × ℝ, b ∈ ({(x0, y0)}ᶜ : Set (ℝ × ℝ)) ↔ 0 < rad b := by
    intro b
    change b ≠ (x0, y0) ↔ _
    rw [ne_eq, ← hrad0]
    exact ⟨fun h => lt_of_le_of_ne (sqrt_nonneg _) (Ne.symm h), fun h => h.ne'⟩
  constructor
  · have hU : MeasurableSet {p | Rein < rad p} := measurableSet_lt measurable_const hcont.measurable
    have hpos : ∀ p ∈ {p | Rein < rad p}, 0 < rad p := fun p hp => hR.trans hp
    have hplus : ∀ p ∈ {p | Rein < rad p}, let b := rayOf (pointDeflection x0 y0 Rein 0) p.1 p.2
        p = (x0 + (1 + √(rad b ^ 2 + 4 * Rein ^ 2) / rad b) / 2 * (b.1 - x0),
          y0 + (1 + √(rad b ^ 2 + 4 * Rein ^ 2) / rad b) / 2 * (b.2 - y0)) := by
      intro p hp b
      have hp' : Rein < rad p := hp
      rcases hsolve p (hpos p hp) hp'.ne' with h | h
      · exact h
      · exfalso
        have hb := hb0 p (hpos p hp) hp'.ne'
        have := hminr b hb
        rw [← h] at this
        have := (hw b hb).2.2
        linarith
    have himg : (fun p : ℝ × ℝ => rayOf (pointDeflection x0 y0 Rein 0) p.1 p.2) '' {p | Rein < rad p} = {(x0, y0)}ᶜ := by
      ext b
      rw [hcompl]
      constructor
      · rintro ⟨p, hp, rfl⟩
        have hp' : Rein < rad p := hp
        exact hb0 p (hpos p hp) hp'.ne'
      · intro hb
        refine ⟨(x0 + (1 + √(rad b ^ 2 + 4 * Rein ^ 2) / rad b) / 2 * (b.1 - x0),
          y0 + (1 + √(rad b ^ 2 + 4 * Rein ^ 2) / rad b) / 2 * (b.2 - y0)), ?_, ?_⟩
        · change Rein < rad _
          rw [hplusr b hb]
          linarith [(hw b hb).1]
        · have h := (C78_point x0 y0 Rein b.1 b.2 _ _ hR (hne b hb)).2 (.inl rfl)
          rw [point_ray_ne (line_ne (hne b hb) (by positivity))] at h
          exact Option.some.inj h
    rw [lens_flux_piece (m := fun b => (A b + 1) / 2) hU (fun p hp => hM p (hne p (hpos p hp))) ?_ himg ?_ S, hfin]
    · intro p hp p' hp' h
      rw [hplus p hp, hplus p' hp', h]
    · intro p hp
      have hp' : Rein < rad p := hp
      have hp0 := hpos p hp
      rw [hdet p (hne p hp0)]
      simp only [A, hW p hp0]
      have h2 : 0 < rad p - Rein ^ 2 / rad p := by
        rw [sub_pos, div_lt_iff₀ hp0]; nlinarith
      rw [hray p hp0, abs_of_pos h2]
      change |1 - (Rein / rad p) ^ 4| * _ = 1
      have h1 : 0 < 1 - (Rein / rad p) ^ 4 := by
        rw [sub_pos]
        exact pow_lt_one₀ (by positivity) ((div_lt_one hp0).2 hp') (by norm_num)
      rw [abs_of_pos h1]
      generalize rad p = r at *
      have hr4 : r ^ 4 - Rein ^ 4 ≠ 0 := by
        have : Rein ^ 4 < r ^ 4 := pow_lt_pow_left₀ hp' hR.le (by norm_num)
        linarith
      have e3 : (r - Rein ^ 2 / r) * (r + Rein ^ 2 / r) = (r ^ 4 - Rein ^ 4) / r ^ 2 := by field_simp; ring
      have e4 : (r - Rein ^ 2 / r) ^ 2 + 2 * Rein ^ 2 = (r ^ 4 + Rein ^ 4) / r ^ 2 := by field_simp; ring
      rw [e3, e4]
      field_simp
      ring
  · have hU' : MeasurableSet {p | 0 < rad p ∧ rad p < Rein} :=
      (measurableSet_lt measurable_const hcont.measurable).inter (measurableSet_lt hcont.measurable measurable_const)
    have key : ∀ (F : ℝ × ℝ → ENNReal), ∫⁻ p in {p | rad p < Rein}, F p = ∫⁻ p in {p | 0 < rad p ∧ rad p < Rein}, F p := by
      intro F
      apply setLIntegral_congr
      have h := (compl_singleton_ae (x0, y0)).inter (ae_eq_refl {p : ℝ × ℝ | rad p < Rein})
      rw [univ_inter] at h
      refine h.symm.trans (Filter.Eventually.of_forall fun p => ?_)
      apply propext
      change (p ∈ ({(x0, y0)}ᶜ : Set (ℝ × ℝ)) ∧ rad p < Rein) ↔ (0 < rad p ∧ rad p < Rein)
      rw [hcompl]
    rw [key]
    have hminus : ∀ p ∈ {p | 0 < rad p ∧ rad p < Rein}, let b := rayOf (pointDeflection x0 y0 Rein 0) p.1 p.2
        p = (x0 + (1 - √(rad b ^ 2 + 4 * Rein ^ 2) / rad b) / 2 * (b.1 - x0),
          y0 + (1 - √(rad b ^ 2 + 4 * Rein ^ 2) / rad b) / 2 * (b.2 - y0)) := by
      intro p hp b
      have hp' : rad p < Rein := hp.2
      rcases hsolve p hp.1 hp'.ne with h | h
      · exfalso
        have hb := hb0 p hp.1 hp'.ne
        have := hplusr b hb
        rw [← h] at this
        have := (hw b hb).1
        linarith
      · exact h
    have himg : (fun p : ℝ × ℝ => rayOf (pointDeflection x0 y0 Rein 0) p.1 p.2) '' {p | 0 < rad p ∧ rad p < Rein}
        = {(x0, y0)}ᶜ := by
      ext b
      rw [hcompl]
      constructor
      · rintro ⟨p, hp, rfl⟩
        exact hb0 p hp.1 (ne_of_lt hp.2)
      · intro hb
        have hk : 1 - √(rad b ^ 2 + 4 * Rein ^ 2) / rad b < 0 := by
          rw [sub_neg, one_lt_div hb]; exact (hw b hb).2.1
        refine ⟨(x0 + (1 - √(rad b ^ 2 + 4 * Rein ^ 2) / rad b) / 2 * (b.1 - x0),
          y0 + (1 - √(rad b ^ 2 + 4 * Rein ^ 2) / rad b) / 2 * (b.2 - y0)), ?_, ?_⟩
        · change 0 < rad _ ∧ rad _ < Rein
          rw [hminr b hb]
          constructor <;> linarith [(hw b hb).2.1, (hw b hb).2.2]
        · have h := (C78_point x0 y0 Rein b.1 b.2 _ _ hR (hne b hb)).2 (.inr rfl)
          rw [point_ray_ne (line_ne (hne b hb) (by linarith))] at h
          exact Option.some.inj h
    rw [lens_flux_piece (m := fun b => (A b - 1) / 2) hU' (fun p hp => hM p (hne p hp.1)) ?_ himg ?_ S, hfin]
    · intro p hp p' hp' h
      rw [hminus p hp, hminus p' hp', h]
    · intro p hp
      have hp0 := hp.1
      have hp' := hp.2
      rw [hdet p (hne p hp0)]
      simp only [A, hW p hp0]
      have h2 : rad p - Rein ^ 2 / rad p < 0 := by
        rw [sub_neg, lt_div_iff₀ hp0]; nlinarith
      rw [hray p hp0, abs_of_neg h2]
      change |1 - (Rein / rad p) ^ 4| * _ = 1
      have h1 : 1 - (Rein / rad p) ^ 4 < 0 := by
        rw [sub_neg]
        exact one_lt_pow₀ ((one_lt_div hp0).2 hp') (by norm_num)
      rw [abs_of_neg h1]
      generalize rad p = r at *
      have hr4 : Rein ^ 4 - r ^ 4 ≠ 0 := by
        have : r ^ 4 < Rein ^ 4 := pow_lt_pow_left₀ hp' hp0.le (by norm_num)
        linarith
      have e3 : -(r - Rein ^ 2 / r) * (r + Rein ^ 2 / r) = (Rein ^ 4 - r ^ 4) / r ^ 2 := by field_simp; ring
      have e4 : (-(r - Rein ^ 2 / r)) ^ 2 + 2 * Rein ^ 2 = (r ^ 4 + Rein ^ 4) / r ^ 2 := by field_simp; ring
      rw [e3, e4]
      field_simp
      ring

/-- The two together: each point of the source is magnified by `(u² + 2) / (u sqrt (u² + 4))`, with `u` its
distance from the lens in Einstein radii. -/
theorem C85_point_total (x0 y0 Rein : ℝ) (hR : 0 < Rein) {S : ℝ × ℝ → ENNReal} (hS : Measurable S) :
    let rad := fun p : ℝ × ℝ => √((p.1 - x0) ^ 2 + (p.2 - y0) ^ 2)
    ∫⁻ p in {p | rad p ≠ Rein}, S (rayOf (pointDeflection x0 y0 Rein 0) p.1 p.2)
      = ∫⁻ b, S b * ENNReal.ofReal (((rad b / Rein) ^ 2 + 2) / (rad b / Rein * √((rad b / Rein) ^ 2 + 4))) := by
  intro rad
  obtain ⟨h1, h2⟩ := C85_point x0 y0 Rein hR S
  have hcont : Continuous rad := by simp only [rad]; fun_prop
  have hm1 : MeasurableSet {p | rad p < Rein} := measurableSet_lt hcont.measurable measurable_const
  have hsplit : {p | rad p ≠ Rein} = {p | Rein < rad p} ∪ {p | rad p < Rein} := by
    ext p
    change rad p ≠ Rein ↔ Rein < rad p ∨ rad p < Rein
    rw [or_comm, lt_or_lt_iff_ne]
  have hdis : Disjoint {p | Rein < rad p} {p | rad p < Rein} := by
    rw [Set.disjoint_left]
    intro p (hp : Rein < rad p) (hp' : rad p < Rein)
    linarith
  rw [hsplit, lintegral_union hm1 hdis]
  let A := fun b : ℝ × ℝ => (rad b ^ 2 + 2 * Rein ^ 2) / (rad b * √(rad b ^ 2 + 4 * Rein ^ 2))
  have hA : Measurable A :=
    ((hcont.pow 2).add continuous_const).measurable.div
      (hcont.mul (((hcont.pow 2).add continuous_const).sqrt)).measurable
  have hmr : Measurable fun b => S b * ENNReal.ofReal ((A b + 1) / 2) :=
    hS.mul (ENNReal.measurable_ofReal.comp ((hA.add measurable_const).div_const 2))
  have e1 : ∫⁻ p in {p | Rein < rad p}, S (rayOf (pointDeflection x0 y0 Rein 0) p.1 p.2)
      = ∫⁻ b, S b * ENNReal.ofReal ((A b + 1) / 2) := h1
  have e2 : ∫⁻ p in {p | rad p < Rein}, S (rayOf (pointDeflection x0 y0 Rein 0) p.1 p.2)
      = ∫⁻ b, S b * ENNReal.ofReal ((A b - 1) / 2) := h2
  rw [e1, e2, ← lintegral_add_left hmr]
  have hae : ∀ᵐ b : ℝ × ℝ, b ≠ (x0, y0) := by
    have := (compl_singleton_ae (x0, y0))
    rw [ae_eq_univ] at this
    rw [ae_iff]
    simp
  refine lintegral_congr_ae ?_
  filter_upwards [hae] with b hb
  have hr : 0 < rad b := radius_pos (sub_ne_zero_pair (bx := b.1) (bys := b.2) hb)
  have hw : 0 < √(rad b ^ 2 + 4 * Rein ^ 2) := by positivity
  have h1A : 1 ≤ A b := by
    simp only [A]
    rw [one_le_div (by positivity), ← abs_of_pos hr, ← sqrt_sq_eq_abs, ← sqrt_mul (sq_nonneg _), sqrt_sq_eq_abs, sq_abs]
    rw [sqrt_le_left (by positivity)]
    nlinarith [sq_nonneg (Rein ^ 2)]
  rw [← mul_add, ← ENNReal.ofReal_add (by linarith) (by linarith)]
  congr 2
  have e3 : √((rad b / Rein) ^ 2 + 4) = √(rad b ^ 2 + 4 * Rein ^ 2) / Rein := by
    rw [show (rad b / Rein) ^ 2 + 4 = (rad b ^ 2 + 4 * Rein ^ 2) / Rein ^ 2 by field_simp, sqrt_div' _ (sq_nonneg _),
      sqrt_sq hR.le]
  rw [e3]
  simp only [A]
  field_simp
  ring

/-! ### Mass sheet with external shear -/

/-- A source behind a mass sheet with external shear: its flux times `1 / |(1 - kappa)² - gamma²|`. -/
theorem C85_sheet_shear (x0 y0 x1 y1 kappa g1 g2 : ℝ) (h : (1 - kappa) ^ 2 - g1 ^ 2 - g2 ^ 2 ≠ 0) (S : ℝ × ℝ → ℝ) :
    ∫ p : ℝ × ℝ, S (p.1 - (sheetDeflection x0 y0 kappa p.1 p.2).1 - (shearDeflection x1 y1 g1 g2 p.1 p.2).1,
        p.2 - (sheetDeflection x0 y0 kappa p.1 p.2).2 - (shearDeflection x1 y1 g1 g2 p.1 p.2).2)
      = 1 / |(1 - kappa) ^ 2 - g1 ^ 2 - g2 ^ 2| * ∫ b, S b := by
  have hdet : (1 - kappa - g1) * (1 - kappa + g1) - (-g2) * (-g2) ≠ 0 := by
    intro h'; apply h; linarith
  have h1 := integral_affine (fun b => S (b + (x0 * kappa + g1 * x1 + g2 * y1, y0 * kappa + g2 * x1 - g1 * y1))) hdet 0 0
  rw [integral_add_right_eq_self (fun b => S b)] at h1
  rw [show (1 - kappa) ^ 2 - g1 ^ 2 - g2 ^ 2 = (1 - kappa - g1) * (1 - kappa + g1) - (-g2) * (-g2) by ring,
    one_div, ← h1]
  congr 1
  funext p
  congr 1
  simp only [sheetDeflection, shearDeflection, translateRotate, Prod.mk_add_mk]
  ext <;> simp only <;> ring

/-- A Sersic galaxy behind a sheet of convergence 1/2 with shear 1/4: 16/3 times its flux, wherever it is
and however it is turned. -/
example (x0 y0 x1 y1 xs ys phi : ℝ) :
    ∫ p : ℝ × ℝ, (fun b : ℝ × ℝ => Sersic.brightness false 0 xs ys (1 / 2) phi 1 3 7 b.1 b.2)
        (p.1 - (sheetDeflection x0 y0 (1 / 2) p.1 p.2).1 - (shearDeflection x1 y1 (1 / 4) 0 p.1 p.2).1,
          p.2 - (sheetDeflection x0 y0 (1 / 2) p.1 p.2).2 - (shearDeflection x1 y1 (1 / 4) 0 p.1 p.2).2)
      = 16 / 3 * (2 * π * (1 / 2) * 1 * 7 * 3 ^ 2 * exp (sersicK false 1) * sersicK false 1 ^ (-(2 * 1 : ℝ)) * Gamma (2 * 1)) := by
  rw [C85_sheet_shear x0 y0 x1 y1 (1 / 2) (1 / 4) 0 (by norm_num)
    (fun b : ℝ × ℝ => Sersic.brightness false 0 xs ys (1 / 2) phi 1 3 7 b.1 b.2),
    (C84_total false (by norm_num) (by norm_num) (by norm_num)).2]
  congr 1
  rw [abs_of_pos (by norm_num)]
  norm_num

/-- A source of brightness 1 over the plane, seen outside the Einstein ring (radius 2) of a point mass; at
distance 3 from the lens the weight is 16/15. -/
example : ∫⁻ p in {p : ℝ × ℝ | 2 < √((p.1 - 0) ^ 2 + (p.2 - 0) ^ 2)},
      (fun _ => 1 : ℝ × ℝ → ENNReal) (rayOf (pointDeflection 0 0 2 0) p.1 p.2)
    = ∫⁻ b : ℝ × ℝ, (fun _ => 1 : ℝ × ℝ → ENNReal) b * ENNReal.ofReal
        (((√((b.1 - 0) ^ 2 + (b.2 - 0) ^ 2) ^ 2 + 2 * 2 ^ 2)
          / (√((b.1 - 0) ^ 2 + (b.2 - 0) ^ 2) * √(√((b.1 - 0) ^ 2 + (b.2 - 0) ^ 2) ^ 2 + 4 * 2 ^ 2)) + 1) / 2) :=
  (C85_point 0 0 2 (by norm_num) (fun _ => 1)).1

example : ((3 ^ 2 + 2 * 2 ^ 2) / (3 * √(3 ^ 2 + 4 * 2 ^ 2)) + 1) / 2 = (16 / 15 : ℝ) := by
  rw [show (3 : ℝ) ^ 2 + 4 * 2 ^ 2 = 5 ^ 2 by norm_num, sqrt_sq (by norm_num)]
  norm_num

/-- A Gaussian source behind a singular isothermal sphere of Einstein radius 5. -/
example : ∫⁻ p in {p : ℝ × ℝ | √((p.1 - 1) ^ 2 + (p.2 - 2) ^ 2) ≠ 5},
      (fun b : ℝ × ℝ => ENNReal.ofReal (exp (-(b.1 ^ 2 + b.2 ^ 2)))) (rayOf (sisDeflection 1 2 5 0) p.1 p.2)
    = ∫⁻ b : ℝ × ℝ, (fun b : ℝ × ℝ => ENNReal.ofReal (exp (-(b.1 ^ 2 + b.2 ^ 2)))) b
        * ENNReal.ofReal (if √((b.1 - 1) ^ 2 + (b.2 - 2) ^ 2) < 5 then 2 * (5 / √((b.1 - 1) ^ 2 + (b.2 - 2) ^ 2))
          else 1 + 5 / √((b.1 - 1) ^ 2 + (b.2 - 2) ^ 2)) :=
  C85_sis_total 1 2 5 (by norm_num) (S := fun b : ℝ × ℝ => ENNReal.ofReal (exp (-(b.1 ^ 2 + b.2 ^ 2))))
    (by fun_prop)

end Caustics

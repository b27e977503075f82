import Verif.Model.WCS
import Verif.Lemmas.Arctan2

/-! C05: world coordinate round trips. -/

namespace Caustics

open Real

private theorem rad_deg : radToDeg * degToRad = 1 := by
  unfold degToRad radToDeg
  have := Real.pi_ne_zero
  field_simp

private theorem deg_rad : degToRad * radToDeg = 1 := by rw [mul_comm]; exact rad_deg

private theorem sq_sqrt_one (r : ℝ) : 0 < √(1 + r ^ 2) := Real.sqrt_pos.mpr (by positivity)

private theorem sum_sq_zero {u v : ℝ} (h : u ^ 2 + v ^ 2 = 0) : u = 0 ∧ v = 0 := by
  constructor <;> nlinarith [sq_nonneg u, sq_nonneg v]

/-- C05: from the tangent plane to the sky and back, for every point of the plane and every
reference position. -/
theorem C05_plane_world_plane (px py : ℝ) (crval : ℝ × ℝ) :
    (let w := planeToWorld px py crval
     worldToPlane w.1 w.2 crval) = (px, py) := by
  obtain ⟨ra0, dec0⟩ := crval
  have hrd := rad_deg
  simp only [planeToWorld]
  set u := px * degToRad with hu
  set v := py * degToRad with hv
  set d0 := dec0 * degToRad with hd0
  set rho := √(u ^ 2 + v ^ 2) with hrho
  have hpu : u * radToDeg = px := by rw [hu, mul_assoc, deg_rad, mul_one]
  have hpv : v * radToDeg = py := by rw [hv, mul_assoc, deg_rad, mul_one]
  by_cases h0 : rho = 0
  · have hsum : u ^ 2 + v ^ 2 = 0 := by
      have := Real.sqrt_eq_zero (by positivity : 0 ≤ u ^ 2 + v ^ 2)
      exact this.mp h0
    obtain ⟨hu0, hv0⟩ := sum_sq_zero hsum
    have ha : arctan2 (u * sin (arctan rho)) (rho * cos d0 * cos (arctan rho)
        - v * sin d0 * sin (arctan rho)) = 0 := by
      rw [hu0, hv0, h0]
      simp [arctan2]
      exact Complex.arg_zero
    rw [ha, if_pos h0]
    simp only [worldToPlane, mul_zero, add_zero, sub_self, Real.sin_zero, Real.cos_zero, mul_one,
      ← hd0]
    rw [← hpu, ← hpv, hu0, hv0]
    have hz : cos d0 * sin d0 - sin d0 * cos d0 = 0 := by ring
    rw [hz]
    simp
  · rw [if_neg h0]
    have hrpos : 0 < rho := lt_of_le_of_ne (Real.sqrt_nonneg _) (Ne.symm h0)
    have hrsq : rho ^ 2 = u ^ 2 + v ^ 2 := Real.sq_sqrt (by positivity)
    set s := √(1 + rho ^ 2) with hs
    have hspos : 0 < s := sq_sqrt_one rho
    have hssq : s ^ 2 = 1 + rho ^ 2 := Real.sq_sqrt (by positivity)
    have hcos : cos (arctan rho) = 1 / s := Real.cos_arctan rho
    have hsin : sin (arctan rho) = rho / s := Real.sin_arctan rho
    rw [hcos, hsin]
    set A := cos d0 - v * sin d0 with hA
    have harg1 : u * (rho / s) = (rho / s) * u := by ring
    have harg2 : rho * cos d0 * (1 / s) - v * sin d0 * (rho / s) = (rho / s) * A := by
      rw [hA]; field_simp
    have hS : 1 / s * sin d0 + v * (rho / s) * cos d0 / rho = (sin d0 + v * cos d0) / s := by
      field_simp
    rw [harg1, harg2, hS]
    set t := rho / s with ht
    have htpos : 0 < t := div_pos hrpos hspos
    set Δ := arctan2 (t * u) (t * A) with hΔ
    set R := √(A ^ 2 + u ^ 2) with hR
    have hRt : √((t * A) ^ 2 + (t * u) ^ 2) = t * R := by
      rw [hR, show (t * A) ^ 2 + (t * u) ^ 2 = t ^ 2 * (A ^ 2 + u ^ 2) by ring,
        Real.sqrt_mul (by positivity), Real.sqrt_sq htpos.le]
    have hc : R * cos Δ = A := by
      have := sqrt_mul_cos_arctan2 (t * A) (t * u)
      rw [hRt, mul_assoc] at this
      exact mul_left_cancel₀ htpos.ne' this
    have hsn : R * sin Δ = u := by
      have := sqrt_mul_sin_arctan2 (t * A) (t * u)
      rw [hRt, mul_assoc] at this
      exact mul_left_cancel₀ htpos.ne' this
    have hsum : A ^ 2 + u ^ 2 + (sin d0 + v * cos d0) ^ 2 = s ^ 2 := by
      rw [hssq, hrsq, hA]
      linear_combination (1 + v ^ 2) * Real.sin_sq_add_cos_sq d0
    set q := (sin d0 + v * cos d0) / s with hq
    have hq2 : q ^ 2 = (sin d0 + v * cos d0) ^ 2 / s ^ 2 := by rw [hq, div_pow]
    have hq1 : q ^ 2 ≤ 1 := by
      rw [hq2, div_le_one (by positivity)]
      nlinarith [sq_nonneg A, sq_nonneg u]
    have hqle : -1 ≤ q ∧ q ≤ 1 := abs_le.mp ((sq_le_one_iff_abs_le_one q).mp hq1)
    have hsa : sin (arcsin q) = q := Real.sin_arcsin hqle.1 hqle.2
    have hca : cos (arcsin q) = R / s := by
      rw [Real.cos_arcsin, hR]
      have : 1 - q ^ 2 = (A ^ 2 + u ^ 2) / s ^ 2 := by
        rw [hq2]
        field_simp
        linarith [hsum]
      rw [this, Real.sqrt_div' _ (by positivity), Real.sqrt_sq hspos.le]
    simp only [worldToPlane]
    have e1 : (ra0 + radToDeg * Δ) * degToRad - ra0 * degToRad = Δ := by
      linear_combination Δ * hrd
    have e2 : radToDeg * arcsin q * degToRad = arcsin q := by
      linear_combination arcsin q * hrd
    simp only [e1, e2, hsa, hca, ← hd0]
    have hcc : R / s * cos Δ = A / s := by rw [div_mul_eq_mul_div, hc]
    have hcs : R / s * sin Δ = u / s := by rw [div_mul_eq_mul_div, hsn]
    have hcosc : sin d0 * q + cos d0 * (R / s) * cos Δ = 1 / s := by
      rw [mul_assoc, hcc, hq, hA]
      field_simp
      linear_combination Real.sin_sq_add_cos_sq d0
    have hy : cos d0 * q - sin d0 * (R / s) * cos Δ = v / s := by
      rw [mul_assoc, hcc, hq, hA]
      field_simp
      linear_combination v * Real.sin_sq_add_cos_sq d0
    rw [hcosc, hcs, hy]
    ext
    · simp only
      rw [← hpu]
      field_simp
    · simp only
      rw [← hpv]
      field_simp

/-- C05: from the sky to the tangent plane and back, for every position in the visible hemisphere
around the reference position, away from the poles, right ascension within half a turn of the
reference. -/
theorem C05_world_plane_world (ra dec : ℝ) (crval : ℝ × ℝ)
    (hdec : -90 < dec ∧ dec < 90) (hdec0 : -90 < crval.2 ∧ crval.2 < 90)
    (hra : -180 < ra - crval.1 ∧ ra - crval.1 ≤ 180)
    (hvis : 0 < sin (crval.2 * degToRad) * sin (dec * degToRad)
      + cos (crval.2 * degToRad) * cos (dec * degToRad) * cos ((ra - crval.1) * degToRad)) :
    (let p := worldToPlane ra dec crval
     planeToWorld p.1 p.2 crval) = (ra, dec) := by
  obtain ⟨ra0, dec0⟩ := crval
  simp only at hdec0 hra hvis
  have hrd := rad_deg
  have hdr := deg_rad
  have hpi := Real.pi_pos
  have hdval : degToRad = π / 180 := by unfold degToRad radToDeg; field_simp
  have hrange : ∀ z : ℝ, -90 < z ∧ z < 90 → -(π / 2) < z * degToRad ∧ z * degToRad < π / 2 := by
    intro z hz
    rw [hdval]
    constructor <;> nlinarith [hz.1, hz.2]
  obtain ⟨hd1, hd2⟩ := hrange dec hdec
  obtain ⟨hd01, hd02⟩ := hrange dec0 hdec0
  have hΔ : (ra - ra0) * degToRad ∈ Set.Ioc (-π) π := by
    rw [hdval]
    constructor
    · have := mul_lt_mul_of_pos_right hra.1 (by positivity : 0 < π / 180)
      linarith
    · have := mul_le_mul_of_nonneg_right hra.2 (by positivity : 0 ≤ π / 180)
      linarith
  have hrasub : ra * degToRad - ra0 * degToRad = (ra - ra0) * degToRad := by ring
  set δ := dec * degToRad with hδ
  set d0 := dec0 * degToRad with hd0
  set Δ := (ra - ra0) * degToRad with hΔdef
  have hcosδ : 0 < cos δ := Real.cos_pos_of_mem_Ioo ⟨hd1, hd2⟩
  have hcosd0 : 0 < cos d0 := Real.cos_pos_of_mem_Ioo ⟨hd01, hd02⟩
  set K := sin d0 * sin δ + cos d0 * cos δ * cos Δ with hK
  set u := cos δ * sin Δ / K with hu
  set v := (cos d0 * sin δ - sin d0 * cos δ * cos Δ) / K with hv
  have hw : worldToPlane ra dec (ra0, dec0) = (u * radToDeg, v * radToDeg) := by
    simp only [worldToPlane, hrasub, ← hδ, ← hd0, ← hK, ← hu, ← hv]
  rw [hw]
  simp only [planeToWorld, ← hd0]
  have e1 : u * radToDeg * degToRad = u := by rw [mul_assoc, hrd, mul_one]
  have e2 : v * radToDeg * degToRad = v := by rw [mul_assoc, hrd, mul_one]
  simp only [e1, e2]
  have hKu : K * u = cos δ * sin Δ := by rw [hu]; field_simp
  have hKv : K * v = cos d0 * sin δ - sin d0 * cos δ * cos Δ := by rw [hv]; field_simp
  have s1 := Real.sin_sq_add_cos_sq δ
  have s2 := Real.sin_sq_add_cos_sq d0
  have s3 := Real.sin_sq_add_cos_sq Δ
  have hnorm : K ^ 2 * (1 + (u ^ 2 + v ^ 2)) = 1 := by
    have : K ^ 2 * (1 + (u ^ 2 + v ^ 2)) = K ^ 2 + (K * u) ^ 2 + (K * v) ^ 2 := by ring
    rw [this, hKu, hKv, hK]
    linear_combination (sin δ ^ 2 + cos δ ^ 2 * cos Δ ^ 2) * s2 + cos δ ^ 2 * s3 + s1
  set rho := √(u ^ 2 + v ^ 2) with hrho
  have hrsq : rho ^ 2 = u ^ 2 + v ^ 2 := Real.sq_sqrt (by positivity)
  have hs : √(1 + rho ^ 2) = 1 / K := by
    rw [hrsq, show 1 + (u ^ 2 + v ^ 2) = (1 / K) ^ 2 by
      field_simp; linarith [hnorm]]
    exact Real.sqrt_sq (by positivity)
  have hcos : cos (arctan rho) = K := by
    rw [Real.cos_arctan, hs]; field_simp
  have hsin : sin (arctan rho) = rho * K := by
    rw [Real.sin_arctan, hs]; field_simp
  rw [hcos, hsin]
  have hA : K * cos d0 - K * v * sin d0 = cos δ * cos Δ := by
    rw [hKv, hK]; linear_combination (cos δ * cos Δ) * s2
  have harg1 : u * (rho * K) = (rho * cos δ) * sin Δ := by
    linear_combination rho * hKu
  have harg2 : rho * cos d0 * K - v * sin d0 * (rho * K) = (rho * cos δ) * cos Δ := by
    linear_combination rho * hA
  have hS : K * sin d0 + K * v * cos d0 = sin δ := by
    rw [hKv, hK]; linear_combination sin δ * s2
  rw [harg1, harg2]
  have back_ra : ra0 + radToDeg * Δ = ra := by
    rw [hΔdef]; linear_combination (ra - ra0) * hrd
  have back_dec : radToDeg * δ = dec := by rw [hδ]; linear_combination dec * hrd
  by_cases h0 : rho = 0
  · have huv : u ^ 2 + v ^ 2 = 0 := by rw [← hrsq, h0]; ring
    obtain ⟨hu0, hv0⟩ := sum_sq_zero huv
    have hK1 : K = 1 := by
      have : K ^ 2 = 1 := by rw [← hnorm, huv]; ring
      exact (pow_eq_one_iff_of_nonneg hvis.le two_ne_zero).mp this
    have hsd : sin δ = sin d0 := by rw [← hS, hK1, hv0]; ring
    have hδd0 : δ = d0 := Real.injOn_sin ⟨hd1.le, hd2.le⟩ ⟨hd01.le, hd02.le⟩ hsd
    have hsΔ : sin Δ = 0 := by
      have : cos δ * sin Δ = 0 := by rw [← hKu, hu0, mul_zero]
      exact (mul_eq_zero.mp this).resolve_left hcosδ.ne'
    have hcΔ : cos Δ = 1 := by
      have : cos δ * cos Δ = cos δ := by rw [← hA, hK1, hv0, hδd0]; ring
      exact mul_left_cancel₀ hcosδ.ne' (by rw [this, mul_one])
    have hΔ0 : Δ = 0 := by
      have := arctan2_polar one_pos hΔ
      rw [hsΔ, hcΔ] at this
      rw [← this]
      simp only [mul_zero, mul_one, arctan2]
      exact Complex.arg_one
    have ha : arctan2 (rho * cos δ * sin Δ) (rho * cos δ * cos Δ) = 0 := by
      rw [h0]
      simp only [zero_mul, arctan2]
      exact Complex.arg_zero
    rw [ha, if_pos h0]
    ext
    · simp only; rw [← back_ra, hΔ0]
    · simp only; rw [← back_dec, hδd0, hd0]; linear_combination -dec0 * hrd
  · have hrpos : 0 < rho := lt_of_le_of_ne (Real.sqrt_nonneg _) (Ne.symm h0)
    rw [arctan2_polar (by positivity) hΔ, if_neg h0]
    have : K * sin d0 + v * (rho * K) * cos d0 / rho = sin δ := by
      rw [← hS]; field_simp
    rw [this, Real.arcsin_sin hd1.le hd2.le]
    ext
    · exact back_ra
    · exact back_dec

private theorem inv_apply (cd : CDMatrix) (h : cd.det ≠ 0) :
    ∃ icd, cd.inv? = some icd ∧ (∀ v, icd.apply (cd.apply v) = v) ∧
      ∀ v, cd.apply (icd.apply v) = v := by
  refine ⟨_, by simp only [CDMatrix.inv?, if_neg h]; rfl, ?_, ?_⟩
  all_goals
    intro v
    have hD : cd.a * cd.d - cd.b * cd.c = cd.det := rfl
    generalize cd.det = D at *
    ext <;> simp only [CDMatrix.apply] <;> field_simp
  · linear_combination v.1 * hD
  · linear_combination v.2 * hD
  · linear_combination v.1 * hD
  · linear_combination v.2 * hD

/-- The SIP loop as a sum. -/
theorem sipDelta_sum (powers : List (ℕ × ℕ)) (coefs : List (ℝ × ℝ)) (v : ℝ × ℝ) (h : powers.length ≤ coefs.length) :
    sipDelta powers coefs v = some
      (∑ k ∈ Finset.range powers.length,
          (coefs.getD k (0, 0)).1 * (v.1 ^ (powers.getD k (0, 0)).1 * v.2 ^ (powers.getD k (0, 0)).2),
       ∑ k ∈ Finset.range powers.length,
          (coefs.getD k (0, 0)).2 * (v.1 ^ (powers.getD k (0, 0)).1 * v.2 ^ (powers.getD k (0, 0)).2)) := by
  have key : ∀ (ps : List (ℕ × ℕ)) (cs : List (ℝ × ℝ)) (acc : ℝ × ℝ), ps.length ≤ cs.length →
      (ps.zip cs).foldl (fun acc t => (acc.1 + t.2.1 * (v.1 ^ t.1.1 * v.2 ^ t.1.2),
        acc.2 + t.2.2 * (v.1 ^ t.1.1 * v.2 ^ t.1.2))) acc =
      (acc.1 + ∑ k ∈ Finset.range ps.length,
          (cs.getD k (0, 0)).1 * (v.1 ^ (ps.getD k (0, 0)).1 * v.2 ^ (ps.getD k (0, 0)).2),
       acc.2 + ∑ k ∈ Finset.range ps.length,
          (cs.getD k (0, 0)).2 * (v.1 ^ (ps.getD k (0, 0)).1 * v.2 ^ (ps.getD k (0, 0)).2)) := by
    intro ps
    induction ps with
    | nil => intro cs acc _; simp
    | cons p ps ih =>
      intro cs acc hl
      cases cs with
      | nil => simp at hl
      | cons c cs =>
        rw [List.zip_cons_cons, List.foldl_cons, ih cs _ (by simpa using hl), List.length_cons,
          Finset.sum_range_succ', Finset.sum_range_succ']
        simp only [List.getD_cons_zero, List.getD_cons_succ, Prod.mk.injEq]
        constructor <;> ring
  unfold sipDelta
  rw [if_neg (not_lt.2 h), key powers coefs _ h]
  simp

/-- What the SIP terms do: the first components of the coefficients distort the first pixel coordinate,
the second components the second one, term by term, before the CD matrix is applied; fewer
coefficients than powers is an error. -/
theorem C05_sip_terms (i j : ℝ) (crpix : ℝ × ℝ) (cd : CDMatrix) (powers : List (ℕ × ℕ))
    (coefs : List (ℝ × ℝ)) (crplane : ℝ × ℝ) :
    (coefs.length < powers.length → pixelToPlane i j crpix cd powers coefs (some crplane) = none) ∧
    (powers.length ≤ coefs.length → ∃ du dv : ℝ,
      du = ∑ k ∈ Finset.range powers.length, (coefs.getD k (0, 0)).1 *
        ((i - crpix.1) ^ (powers.getD k (0, 0)).1 * (j - crpix.2) ^ (powers.getD k (0, 0)).2) ∧
      dv = ∑ k ∈ Finset.range powers.length, (coefs.getD k (0, 0)).2 *
        ((i - crpix.1) ^ (powers.getD k (0, 0)).1 * (j - crpix.2) ^ (powers.getD k (0, 0)).2) ∧
      pixelToPlane i j crpix cd powers coefs (some crplane) = some
        (cd.a * (i - crpix.1 + du) + cd.b * (j - crpix.2 + dv) + crplane.1,
          cd.c * (i - crpix.1 + du) + cd.d * (j - crpix.2 + dv) + crplane.2)) := by
  constructor
  · intro h
    simp [pixelToPlane, sipDelta, h]
  · intro h
    refine ⟨_, _, rfl, rfl, ?_⟩
    unfold pixelToPlane
    simp only [Option.getD_some]
    rw [sipDelta_sum _ _ _ h]
    rfl

/-- C05: from pixels to the plane and back with SIP polynomials: the result differs from the pixel
by the forward distortion plus the backward polynomial evaluated at the distorted position, so it
is the identity exactly when the latter undoes the former. -/
theorem C05_pixel_plane_pixel_sip (i j : ℝ) (crpix : ℝ × ℝ) (cd : CDMatrix) (hcd : cd.det ≠ 0)
    (pf pb : List (ℕ × ℕ)) (cf cb : List (ℝ × ℝ)) (crplane : Option (ℝ × ℝ)) (df db : ℝ × ℝ)
    (hf : sipDelta pf cf (i - crpix.1, j - crpix.2) = some df)
    (hb : sipDelta pb cb (i - crpix.1 + df.1, j - crpix.2 + df.2) = some db) :
    ∃ p, pixelToPlane i j crpix cd pf cf crplane = some p ∧
      planeToPixel p.1 p.2 crpix cd pb cb crplane = some (i + df.1 + db.1, j + df.2 + db.2) := by
  obtain ⟨icd, hicd, hinv, _⟩ := inv_apply cd hcd
  refine ⟨_, by simp only [pixelToPlane, hf]; rfl, ?_⟩
  simp only [planeToPixel, hicd, add_sub_cancel_right]
  have := hinv (i - crpix.1 + df.1, j - crpix.2 + df.2)
  have e : ((cd.apply (i - crpix.1 + df.1, j - crpix.2 + df.2)).1,
      (cd.apply (i - crpix.1 + df.1, j - crpix.2 + df.2)).2)
      = cd.apply (i - crpix.1 + df.1, j - crpix.2 + df.2) := rfl
  rw [e, this, hb]
  simp only [Option.map_some, Option.some.injEq]
  ext <;> simp only <;> ring

/-- C05: without SIP terms pixels to plane and back is the identity for an invertible CD matrix,
and so is plane to pixels and back. -/
theorem C05_pixel_plane_pixel (i j : ℝ) (crpix : ℝ × ℝ) (cd : CDMatrix) (hcd : cd.det ≠ 0)
    (coefs coefs' : List (ℝ × ℝ)) (crplane : Option (ℝ × ℝ)) :
    (∃ p, pixelToPlane i j crpix cd [] coefs crplane = some p ∧
      planeToPixel p.1 p.2 crpix cd [] coefs' crplane = some (i, j)) ∧
    ∃ p, planeToPixel i j crpix cd [] coefs' crplane = some p ∧
      pixelToPlane p.1 p.2 crpix cd [] coefs crplane = some (i, j) := by
  constructor
  · obtain ⟨p, h1, h2⟩ := C05_pixel_plane_pixel_sip i j crpix cd hcd [] [] coefs coefs' crplane
      (0, 0) (0, 0) (by simp [sipDelta]) (by simp [sipDelta])
    exact ⟨p, h1, by simpa using h2⟩
  · obtain ⟨icd, hicd, _, hinv⟩ := inv_apply cd hcd
    refine ⟨_, by simp only [planeToPixel, hicd, sipDelta]; rfl, ?_⟩
    simp only [pixelToPlane, sipDelta, List.length_nil, Nat.not_lt_zero, if_false, List.zip_nil_left,
      List.foldl_nil, Option.map_some, zero_add, add_sub_cancel_right, add_zero]
    have := hinv (i - (crplane.getD (0, 0)).1, j - (crplane.getD (0, 0)).2)
    have e : ((icd.apply (i - (crplane.getD (0, 0)).1, j - (crplane.getD (0, 0)).2)).1,
        (icd.apply (i - (crplane.getD (0, 0)).1, j - (crplane.getD (0, 0)).2)).2)
        = icd.apply (i - (crplane.getD (0, 0)).1, j - (crplane.getD (0, 0)).2) := rfl
    rw [e, this]
    simp

/-- C05: pixels to sky and back is the identity (no SIP terms, invertible CD matrix), for every
pixel and every reference position. -/
theorem C05_pixel_world_pixel (i j : ℝ) (crpix crval : ℝ × ℝ) (cd : CDMatrix) (hcd : cd.det ≠ 0)
    (coefs coefs' : List (ℝ × ℝ)) (crplane : Option (ℝ × ℝ)) :
    ∃ w, pixelToWorld i j crpix crval cd [] coefs crplane = some w ∧
      worldToPixel w.1 w.2 crpix crval cd [] coefs' crplane = some (i, j) := by
  obtain ⟨p, h1, h2⟩ := (C05_pixel_plane_pixel i j crpix cd hcd coefs coefs' crplane).1
  refine ⟨planeToWorld p.1 p.2 crval, by simp only [pixelToWorld, h1]; rfl, ?_⟩
  simp only [worldToPixel]
  rw [C05_plane_world_plane p.1 p.2 crval]
  exact h2

/-- C05: the reference pixel goes to the reference sky position when `crplane` is not given. -/
theorem C05_reference (crpix crval : ℝ × ℝ) (cd : CDMatrix) (coefs : List (ℝ × ℝ)) :
    pixelToWorld crpix.1 crpix.2 crpix crval cd [] coefs none = some crval := by
  have h : pixelToPlane crpix.1 crpix.2 crpix cd [] coefs none = some (0, 0) := by
    simp [pixelToPlane, sipDelta, CDMatrix.apply]
  rw [pixelToWorld, h]
  simp only [Option.map_some, Option.some.injEq, planeToWorld, zero_mul]
  have hs : √((0 : ℝ) ^ 2 + 0 ^ 2) = 0 := by simp
  rw [hs, if_pos rfl]
  ext
  · simp only [Real.arctan_zero, zero_mul, sub_zero, arctan2]
    rw [show (⟨0, 0⟩ : ℂ) = 0 from rfl, Complex.arg_zero]
    simp
  · rfl

/-- C05, error branch: a singular CD matrix is rejected on the way back. -/
theorem C05_singular (px py : ℝ) (crpix : ℝ × ℝ) (cd : CDMatrix) (hcd : cd.det = 0)
    (powers : List (ℕ × ℕ)) (coefs : List (ℝ × ℝ)) (crplane : Option (ℝ × ℝ)) :
    planeToPixel px py crpix cd powers coefs crplane = none := by
  simp [planeToPixel, CDMatrix.inv?, hcd]

/-- A rotated, flipped CD matrix and a visible sky position. -/
example : (⟨-1, 2, 2, 1⟩ : CDMatrix).det ≠ 0 ∧
    (0 < sin ((0 : ℝ) * degToRad) * sin (0 * degToRad)
      + cos (0 * degToRad) * cos (0 * degToRad) * cos ((60 - 0) * degToRad)) := by
  constructor
  · norm_num [CDMatrix.det]
  · have : (60 - 0) * degToRad = π / 3 := by
      unfold degToRad radToDeg; have := Real.pi_ne_zero; field_simp; norm_num
    rw [this, Real.cos_pi_div_three]
    simp

end Caustics

import Verif.Lemmas.FieldOfView
import Verif.Props.FirstImageLenses
import Verif.Props.FarField
import Verif.Props.WeakLens
import Verif.Props.LMLocal
import Mathlib.Topology.MetricSpace.ProperSpace.Real

/-! C128: how far from a source its images can be, and which field of view holds them all. -/

namespace Caustics

open Real

/-- Outside the circle of radius `rho` about its centre `c` the lens deflects by at most `B` plus `g` times the
distance from the centre. -/
def Reach (alpha : ℝ → ℝ → ℝ × ℝ) (c : ℝ × ℝ) (rho B g : ℝ) : Prop :=
  ∀ p : ℝ × ℝ, rho ≤ len2 (p - c) → len2 (alpha p.1 p.2) ≤ B + g * len2 (p - c)

/-! ### The lens classes -/

theorem C128_sis (x0 y0 Rein s : ℝ) (hR : 0 ≤ Rein) (hs : 0 ≤ s) : Reach (sisDeflection x0 y0 Rein s) (x0, y0) 0 Rein 0 := by
  intro p _
  have hL := len2_nonneg (p.1 - x0, p.2 - y0)
  have e : sisDeflection x0 y0 Rein s p.1 p.2 =
      (Rein / (len2 (p.1 - x0, p.2 - y0) + s) * (p.1 - x0), Rein / (len2 (p.1 - x0, p.2 - y0) + s) * (p.2 - y0)) := by
    simp only [sisDeflection, translateRotate, len2]
    refine Prod.ext ?_ ?_ <;> · simp only []; ring
  rw [e, len2_smul (Rein / (len2 (p.1 - x0, p.2 - y0) + s)) (p.1 - x0, p.2 - y0), zero_mul, add_zero,
    abs_of_nonneg (by positivity), div_mul_eq_mul_div]
  refine div_le_of_le_mul₀ (by positivity) hR ?_
  nlinarith

theorem C128_point (x0 y0 Rein s : ℝ) (hR : 0 ≤ Rein) (hs : 0 ≤ s) : Reach (pointDeflection x0 y0 Rein s) (x0, y0) Rein Rein 0 := by
  intro p hp
  have hp : Rein ≤ len2 (p.1 - x0, p.2 - y0) := hp
  have hL := len2_nonneg (p.1 - x0, p.2 - y0)
  have e : pointDeflection x0 y0 Rein s p.1 p.2 =
      (Rein ^ 2 / (len2 (p.1 - x0, p.2 - y0) + s) ^ 2 * (p.1 - x0),
        Rein ^ 2 / (len2 (p.1 - x0, p.2 - y0) + s) ^ 2 * (p.2 - y0)) := by
    simp only [pointDeflection, translateRotate, len2]
    refine Prod.ext ?_ ?_ <;> · simp only []; ring
  rw [e, len2_smul (Rein ^ 2 / (len2 (p.1 - x0, p.2 - y0) + s) ^ 2) (p.1 - x0, p.2 - y0), zero_mul, add_zero,
    abs_of_nonneg (by positivity), div_mul_eq_mul_div]
  refine div_le_of_le_mul₀ (by positivity) hR ?_
  generalize len2 (p.1 - x0, p.2 - y0) = L at *
  have h1 : Rein * L ≤ (L + s) ^ 2 := by nlinarith
  nlinarith [mul_le_mul_of_nonneg_left h1 hR]

theorem C128_mass_sheet (x0 y0 kappa : ℝ) : Reach (sheetDeflection x0 y0 kappa) (x0, y0) 0 0 |kappa| := by
  intro p _
  have e : sheetDeflection x0 y0 kappa p.1 p.2 = (kappa * (p.1 - x0), kappa * (p.2 - y0)) := by
    simp [sheetDeflection, translateRotate, mul_comm]
  rw [e, len2_smul kappa (p.1 - x0, p.2 - y0), zero_add]
  exact le_rfl

theorem C128_shear (x0 y0 g1 g2 : ℝ) : Reach (shearDeflection x0 y0 g1 g2) (x0, y0) 0 0 √(g1 ^ 2 + g2 ^ 2) := by
  intro p _
  rw [zero_add]
  simp only [len2, shearDeflection, translateRotate]
  rw [← sqrt_mul (by positivity)]
  refine sqrt_le_sqrt (le_of_eq ?_)
  simp only [Prod.fst_sub, Prod.snd_sub]
  ring

/-- The largest deflection of an isothermal ellipsoid, reached on its short axis. -/
noncomputable def sieReach (q Rein : ℝ) : ℝ := Rein * √q / √(1 - q ^ 2) * artanh √(1 - q ^ 2)

theorem C128_sie (x0 y0 q phi Rein s : ℝ) (hq : 0 < q) (hq1 : q < 1) (hR : 0 ≤ Rein) (hs : 0 ≤ s) :
    Reach (sieDeflection x0 y0 q phi Rein s) (x0, y0) 0 (sieReach q Rein) 0 := by
  intro p _
  have hf2 : 0 < 1 - q ^ 2 := by nlinarith
  have hf := sqrt_pos.2 hf2
  have hqq : sieQ q = q := by simp [sieQ, hq1.ne]
  rw [zero_mul, add_zero]
  simp only [sieDeflection, hqq, len2_derotate]
  rw [len2_smul (Rein * √q / √(1 - q ^ 2)) (_, _), abs_of_nonneg (by positivity), sieReach]
  exact mul_le_mul_of_nonneg_left (sie_frame_le hq hf (sq_sqrt hf2.le) hs) (by positivity)

/-- The bound for the isothermal ellipsoid cannot be improved. -/
theorem C128_sie_sharp (x0 y0 q phi Rein t : ℝ) (hq : 0 < q) (hq1 : q < 1) (hR : 0 ≤ Rein) (ht : 0 < t) :
    len2 (sieDeflection x0 y0 q phi Rein 0 (x0 - t * sin phi) (y0 + t * cos phi)) = sieReach q Rein := by
  have hf2 : 0 < 1 - q ^ 2 := by nlinarith
  have hf := sqrt_pos.2 hf2
  have hf1 : √(1 - q ^ 2) < 1 := by rw [sqrt_lt' one_pos]; nlinarith
  have hqq : sieQ q = q := by simp [sieQ, hq1.ne]
  have h1 : translateRotate (x0 - t * sin phi) (y0 + t * cos phi) x0 y0 (some phi) = (0, t) := by
    simp only [translateRotate]
    refine Prod.ext ?_ ?_
    · simp only []; ring
    · simp only []; linear_combination t * sin_sq_add_cos_sq phi
  simp only [sieDeflection, hqq, len2_derotate, h1]
  have h2 : √(q ^ 2 * (0 ^ 2 + 0 ^ 2) + t ^ 2) = t := by rw [show q ^ 2 * (0 ^ 2 + 0 ^ 2) + t ^ 2 = t ^ 2 by ring, sqrt_sq ht.le]
  rw [h2, len2_smul (Rein * √q / √(1 - q ^ 2)) (_, _), abs_of_nonneg (by positivity), sieReach]
  congr 1
  rw [mul_zero, zero_div, arctan_zero, mul_zero, add_zero, mul_div_assoc, div_self ht.ne', mul_one, len2]
  simp only
  rw [show (0 : ℝ) ^ 2 + artanh √(1 - q ^ 2) ^ 2 = artanh √(1 - q ^ 2) ^ 2 by ring, sqrt_sq (artanh_nonneg hf.le)]

/-- The power law, of any slope and with any number of terms of its series: at the elliptical radius
`r` the deflection is at most `(Rein sqrt(q) / r)^t r / q`. -/
theorem C128_epl (x0 y0 q phi Rein t : ℝ) (N : ℕ) (hN : 1 ≤ N) (hq : 0 < q) (hq1 : q ≤ 1) (hR : 0 ≤ Rein)
    (h0 : 0 < t) (h2 : t < 2) (x y : ℝ) (hxy : (x, y) ≠ (x0, y0)) :
    ∃ a, eplDeflection x0 y0 q phi Rein t N none x y = .ok a ∧
      let p := translateRotate x y x0 y0 (some phi)
      let r := √(q ^ 2 * p.1 ^ 2 + p.2 ^ 2)
      len2 a ≤ (Rein * √q / r) ^ t * r / q := by
  set p := translateRotate x y x0 y0 (some phi) with hp
  set z : ℂ := ⟨q * p.1, p.2⟩ with hz
  have hr : ‖z‖ = √(q ^ 2 * p.1 ^ 2 + p.2 ^ 2) := by
    rw [Complex.norm_def, Complex.normSq_apply]
    congr 1
    simp only [hz]
    ring
  have hz0 : z ≠ 0 := by
    intro h
    have hl := len2_translateRotate x y x0 y0 (some phi)
    rw [← hp] at hl
    have h1 : q * p.1 = 0 := congrArg Complex.re h
    have h2 : p.2 = 0 := congrArg Complex.im h
    have h1 : p.1 = 0 := (mul_eq_zero.1 h1).resolve_left hq.ne'
    have : len2 p = 0 := by simp [len2, h1, h2]
    rw [hl, len2, sqrt_eq_zero (by positivity)] at this
    have e1 : x - x0 = 0 := by nlinarith [sq_nonneg (x - x0), sq_nonneg (y - y0)]
    have e2 : y - y0 = 0 := by nlinarith [sq_nonneg (x - x0), sq_nonneg (y - y0)]
    exact hxy (Prod.ext (by linarith) (by linarith))
  set ro := eplSum z (z / (starRingEnd ℂ) z * (-((1 - q) / (1 + q)) : ℝ)) t N with hro
  set k := 2 / (1 + q) * (Rein * √q / ‖z‖) ^ t with hk
  have hd : eplDeflection x0 y0 q phi Rein t N none x y =
      .ok (derotate ((k : ℂ) * ro).re ((k : ℂ) * ro).im (some phi)) := by
    simp only [eplDeflection, eplFrame, ← hp]
    rw [← hz, rOmega_eq z t q N hN none (Or.inl rfl), ← hro]
    simp only [Bind.bind, Except.bind, if_neg hz0, ← hk]
  refine ⟨_, hd, ?_⟩
  intro p' r
  rw [len2_derotate, len2_eq_norm]
  simp only [Complex.eta]
  have hkn : 0 ≤ k := by positivity
  rw [norm_mul, Complex.norm_real, Real.norm_of_nonneg hkn]
  have hf0 : 0 ≤ (1 - q) / (1 + q) := div_nonneg (by linarith) (by linarith)
  have hf1 : (1 - q) / (1 + q) < 1 := by rw [div_lt_one (by linarith)]; linarith
  have hphi : ‖z / (starRingEnd ℂ) z * (-((1 - q) / (1 + q)) : ℝ)‖ ≤ (1 - q) / (1 + q) := by
    rw [norm_mul, norm_div, Complex.norm_conj, div_self (norm_ne_zero_iff.2 hz0), one_mul, Complex.norm_real, norm_neg,
      Real.norm_of_nonneg hf0]
  have hs := eplSum_norm h0 h2 hf0 hf1 z _ hphi N
  rw [← hro] at hs
  calc k * ‖ro‖ ≤ k * (‖z‖ / (1 - (1 - q) / (1 + q))) := mul_le_mul_of_nonneg_left hs hkn
    _ = (Rein * √q / r) ^ t * r / q := by
        change _ = (Rein * √q / √(q ^ 2 * p.1 ^ 2 + p.2 ^ 2)) ^ t * √(q ^ 2 * p.1 ^ 2 + p.2 ^ 2) / q
        rw [← hr, hk]
        have : 1 - (1 - q) / (1 + q) = 2 * q / (1 + q) := by field_simp; ring
        rw [this]
        field_simp

/-- At slopes from isothermal to point-like this is bounded outside a circle. -/
theorem C128_epl_outside (x0 y0 q phi Rein t : ℝ) (N : ℕ) (hN : 1 ≤ N) (hq : 0 < q) (hq1 : q ≤ 1) (hR : 0 < Rein)
    (h1 : 1 ≤ t) (h2 : t < 2) (alpha : ℝ → ℝ → ℝ × ℝ)
    (ha : ∀ x y a, eplDeflection x0 y0 q phi Rein t N none x y = .ok a → alpha x y = a) :
    Reach alpha (x0, y0) Rein (Rein / √q ^ t) 0 := by
  intro p hp
  have hp : Rein ≤ len2 (p.1 - x0, p.2 - y0) := hp
  have hne : (p.1, p.2) ≠ (x0, y0) := by
    intro h
    simp only [Prod.mk.injEq] at h
    rw [h.1, h.2, sub_self, sub_self] at hp
    have : len2 ((0 : ℝ), (0 : ℝ)) = 0 := len2_zero
    linarith
  obtain ⟨a, e, hb⟩ := C128_epl x0 y0 q phi Rein t N hN hq hq1 hR.le (by linarith) h2 p.1 p.2 hne
  rw [ha _ _ _ e, zero_mul, add_zero]
  refine hb.trans ?_
  have hl := len2_translateRotate p.1 p.2 x0 y0 (some phi)
  set P := translateRotate p.1 p.2 x0 y0 (some phi)
  have hr : q * Rein ≤ √(q ^ 2 * P.1 ^ 2 + P.2 ^ 2) := by
    refine (mul_le_mul_of_nonneg_left (hp.trans hl.ge) hq.le).trans ?_
    rw [len2]
    refine le_sqrt_of_sq_le ?_
    rw [mul_pow, sq_sqrt (by positivity)]
    nlinarith [mul_nonneg (sq_nonneg P.2) (show 0 ≤ 1 - q ^ 2 by nlinarith)]
  set r := √(q ^ 2 * P.1 ^ 2 + P.2 ^ 2)
  have hr0 : 0 < r := lt_of_lt_of_le (by positivity) hr
  have hsq := sqrt_pos.2 hq
  have hss := mul_self_sqrt hq.le
  -- compare with the value at `r = q Rein`
  have key : (Rein * √q / r) ^ t * r ≤ (Rein * √q / (q * Rein)) ^ t * (q * Rein) := by
    have e : ∀ u : ℝ, 0 < u → (Rein * √q / u) ^ t * u = (Rein * √q) ^ t * u ^ (1 - t) := by
      intro u hu
      rw [div_rpow (by positivity) hu.le, rpow_sub hu, rpow_one]
      ring
    rw [e r hr0, e (q * Rein) (by positivity)]
    exact mul_le_mul_of_nonneg_left (rpow_le_rpow_of_nonpos (by positivity) hr (by linarith)) (by positivity)
  rw [div_le_iff₀ hq]
  refine key.trans (le_of_eq ?_)
  have e : Rein * √q / (q * Rein) = (√q)⁻¹ := by
    field_simp
    rw [sq, hss]
  rw [e, inv_rpow hsq.le]
  ring

/-- A pseudo-Jaffe lens reaches no further than a point of its total mass. -/
theorem C128_pseudo_jaffe (L : PJaffe) (hL : L.Ok) (hm : 0 < L.mass) (hs : L.s = 0) :
    Reach L.deflection (L.x0, L.y0) (massToReinPoint L.Gc2 L.mass L.d_ls L.d_l L.d_s)
      (massToReinPoint L.Gc2 L.mass L.d_ls L.d_l L.d_s) 0 := by
  intro p hp
  have hG := hL.G; have h1 := hL.d_ls; have h2 := hL.d_l; have h3 := hL.d_s
  have hr := radToArcsec_pos
  set E := massToReinPoint L.Gc2 L.mass L.d_ls L.d_l L.d_s with hE
  have hEpos : 0 < E := mul_pos hr (sqrt_pos.2 (by positivity))
  have hp : E ≤ len2 (p.1 - L.x0, p.2 - L.y0) := hp
  have hne : (p.1, p.2) ≠ (L.x0, L.y0) := by
    intro h
    simp only [Prod.mk.injEq] at h
    rw [h.1, h.2, sub_self, sub_self] at hp
    have : len2 ((0 : ℝ), (0 : ℝ)) = 0 := len2_zero
    linarith
  rw [C110_pseudo_jaffe L hL hm.le hs p.1 p.2 hne]
  set M := pjMassEnclosed √((p.1 - L.x0) ^ 2 + (p.2 - L.y0) ^ 2) L.mass L.Rc L.Rs 0 with hM
  have hM0 : 0 ≤ M := pjMassEnclosed_nonneg hm.le hL.Rc hL.Rs hL.ne (sqrt_nonneg _)
  have hM1 : M ≤ L.mass := by
    obtain ⟨-, hmono, hlim⟩ := C63_pseudo_jaffe_total L.mass L.Rc L.Rs hm.le hL.Rc hL.Rs hL.ne
    refine ge_of_tendsto hlim ?_
    filter_upwards [Filter.eventually_ge_atTop √((p.1 - L.x0) ^ 2 + (p.2 - L.y0) ^ 2)] with r hr
    exact hmono _ _ (sqrt_nonneg _) hr
  have hle : massToReinPoint L.Gc2 M L.d_ls L.d_l L.d_s ≤ E := by
    rw [hE, massToReinPoint, massToReinPoint]
    gcongr
  have h0 : 0 ≤ massToReinPoint L.Gc2 M L.d_ls L.d_l L.d_s := mul_nonneg hr.le (sqrt_nonneg _)
  have := C128_point L.x0 L.y0 _ 0 h0 le_rfl p (hle.trans hp)
  linarith

/-! ### Many lenses in one plane -/

/-- A lens with what is known about its deflection. -/
structure Reaching where
  lens : LensFn ℝ
  c : ℝ × ℝ
  rho : ℝ
  B : ℝ
  g : ℝ

theorem singlePlane_deflection_sum (l : List (LensFn ℝ)) (x y : ℝ) :
    (singlePlane l).deflection x y = (l.map fun m => m.deflection x y).sum := by
  induction l with
  | nil => rfl
  | cons m l ih => rw [singlePlane_cons, List.map_cons, List.sum_cons, ← ih]; rfl

/-- Every image of a source behind a `SinglePlane` is either inside one of the circles about the lenses or no
further from the source than the deflections add up to. -/
theorem C128_single_plane (l : List Reaching) (hl : ∀ m ∈ l, Reach m.lens.deflection m.c m.rho m.B m.g) (z : ℝ)
    (p b : ℝ × ℝ) (himg : ((singlePlane (l.map Reaching.lens)).thin z).raytrace p.1 p.2 = b) :
    (∃ m ∈ l, len2 (p - m.c) < m.rho) ∨
      len2 (p - b) ≤ (l.map Reaching.B).sum + (l.map fun m => m.g * len2 (p - m.c)).sum := by
  by_cases hex : ∃ m ∈ l, len2 (p - m.c) < m.rho
  · exact .inl hex
  · push Not at hex
    refine .inr ?_
    have e : p - b = (l.map fun m => m.lens.deflection p.1 p.2).sum := by
      have h := singlePlane_deflection_sum (l.map Reaching.lens) p.1 p.2
      rw [List.map_map] at h
      rw [← himg]
      refine Eq.trans ?_ h
      simp only [ThinLensFn.raytrace, LensFn.thin]
      refine Prod.ext ?_ ?_ <;> simp
    rw [e, ← List.sum_map_add]
    exact len2_list_sum l _ _ fun m hm => hl m hm p (hex m hm)

/-- The field of view: about any centre `o`, as long as the sheets and shears add up to less than one. -/
theorem C128_field (l : List Reaching) (hl : ∀ m ∈ l, Reach m.lens.deflection m.c m.rho m.B m.g) (hg : ∀ m ∈ l, 0 ≤ m.g)
    (hsum : (l.map Reaching.g).sum < 1) (z : ℝ) (p b o : ℝ × ℝ)
    (himg : ((singlePlane (l.map Reaching.lens)).thin z).raytrace p.1 p.2 = b) :
    (∃ m ∈ l, len2 (p - m.c) < m.rho) ∨
      len2 (p - o) ≤ (len2 (b - o) + (l.map Reaching.B).sum + (l.map fun m => m.g * len2 (m.c - o)).sum)
        / (1 - (l.map Reaching.g).sum) := by
  refine (C128_single_plane l hl z p b himg).imp id fun h => ?_
  rw [le_div_iff₀ (by linarith)]
  have h1 : len2 (p - o) ≤ len2 (p - b) + len2 (b - o) := by
    have := len2_add (p - b) (b - o)
    rwa [sub_add_sub_cancel] at this
  have h2 : (l.map fun m => m.g * len2 (p - m.c)).sum ≤
      (l.map Reaching.g).sum * len2 (p - o) + (l.map fun m => m.g * len2 (m.c - o)).sum := by
    clear h himg hsum hl
    induction l with
    | nil => simp
    | cons m l ih =>
      simp only [List.map_cons, List.sum_cons]
      have := ih fun m hm => hg m (by simp [hm])
      have h3 : len2 (p - m.c) ≤ len2 (p - o) + len2 (m.c - o) := by
        have := len2_add (p - o) (o - m.c)
        rwa [sub_add_sub_cancel, len2_sub_comm o] at this
      have := mul_le_mul_of_nonneg_left h3 (hg m (by simp))
      nlinarith
  linarith

/-! ### Lenses at different redshifts -/

/-- The same for a `Multiplane` of any number of lenses with bounded deflections: no distance enters. -/
theorem C128_multiplane (e : MPEnv ℝ) (zs : ℝ) (hr : e.radToArcsec ≠ 0) (hd : GrowingDist e.dist) (ls : List (ThinLensFn ℝ))
    (hne : ls ≠ []) (hsort : ls.Pairwise fun l m => l.z ≤ m.z) (hb : ∀ l ∈ ls, 0 < l.z ∧ l.z < zs)
    (A : ThinLensFn ℝ → ℝ) (hA : ∀ l ∈ ls, ∀ p : ℝ × ℝ, len2 (l.reduced p.1 p.2) ≤ A l) (p : ℝ × ℝ) :
    ∃ b, mpRaytrace e zs (ls.map (ThinLensFn.plane e zs)) p.1 p.2 = some b ∧ len2 (p - b) ≤ (ls.map A).sum := by
  have hzs : 0 < zs := by
    obtain ⟨l, hl⟩ := List.exists_mem_of_ne_nil ls hne
    exact (hb l hl).1.trans (hb l hl).2
  have hz1 : 1 + zs ≠ 0 := by linarith
  obtain ⟨beta, hray⟩ := ray_exists e.dist (ls.map (ThinLensFn.plane e zs)) p.1 p.2
  refine ⟨_, C16_lens_equation e zs hr _ (by simpa using hne) (planes_sorted e zs ls hsort)
    (planes_between e zs hd hzs ls hb) p.1 p.2 beta hray, ?_⟩
  have h := isRay_thin e zs hz1 ls p.1 p.2 beta hray hzs
  have hall : ls.filter (fun l => l.z < zs) = ls := List.filter_eq_self.2 fun l hl => by simpa using (hb l hl).2
  rw [hall] at h
  have e1 : p - beta zs = (ls.map fun l => l.reduced (beta l.z).1 (beta l.z).2).sum := by
    rw [h, sub_sub_cancel]
    congr 1
    refine List.map_congr_left fun l hl => ?_
    rw [rayWeight_source hd (hb l hl).1 (hb l hl).2, one_smul]
  rw [e1]
  exact len2_list_sum ls _ _ fun l hl => hA l hl _

/-- The bound cannot be improved: behind isothermal spheres on top of each other a source has an image exactly that far away. -/
theorem C128_sharp (x0 y0 z : ℝ) (l : List ℝ) (hl : ∀ R ∈ l, 0 < R) (b : ℝ) (hb : 0 < b) :
    let S := (singlePlane (l.map (sisLens x0 y0))).thin z
    ∃ p, S.raytrace p.1 p.2 = (x0 + b, y0) ∧ len2 (p - (x0 + b, y0)) = l.sum := by
  have hs : 0 ≤ l.sum := List.sum_nonneg fun R hR => (hl R hR).le
  refine ⟨(x0 + (b + l.sum), y0), ?_, ?_⟩
  · have h := singlePlane_deflection_sum (l.map (sisLens x0 y0)) (x0 + (b + l.sum)) y0
    have e : ∀ R, (sisLens x0 y0 R).deflection (x0 + (b + l.sum)) y0 = (R, 0) := by
      intro R
      have hpos : 0 < b + l.sum := by linarith
      simp only [sisLens, sisDeflection, translateRotate, add_sub_cancel_left, sub_self]
      rw [show (b + l.sum) ^ 2 + (0 : ℝ) ^ 2 = (b + l.sum) ^ 2 by ring, sqrt_sq hpos.le, add_zero]
      refine Prod.ext ?_ ?_
      · simp only; field_simp
      · simp
    have h2 : ((l.map (sisLens x0 y0)).map fun m => m.deflection (x0 + (b + l.sum)) y0).sum = (l.sum, 0) := by
      rw [List.map_map]
      have : ((fun m : LensFn ℝ => m.deflection (x0 + (b + l.sum)) y0) ∘ sisLens x0 y0) = fun R => (R, (0 : ℝ)) := funext e
      rw [this]
      clear h e this hl hs
      induction l with
      | nil => rfl
      | cons a l ih => rw [List.map_cons, List.sum_cons, ih, List.sum_cons]; simp
    rw [h2] at h
    simp only [ThinLensFn.raytrace, LensFn.thin, h]
    refine Prod.ext ?_ ?_ <;> simp
    ring
  · rw [len2]
    simp only [Prod.fst_sub, Prod.snd_sub, sub_self]
    rw [show (x0 + (b + l.sum) - (x0 + b)) ^ 2 + (0 : ℝ) ^ 2 = l.sum ^ 2 by ring, sqrt_sq hs]

/-! ### Finding them -/

theorem abs_le_len2 (u : ℝ × ℝ) : |u.1| ≤ len2 u ∧ |u.2| ≤ len2 u := by
  rw [len2]
  exact ⟨abs_le_sqrt (by nlinarith [sq_nonneg u.2]), abs_le_sqrt (by nlinarith [sq_nonneg u.1])⟩

theorem field_contains {R : ℝ × ℝ → ℝ × ℝ} {s : ℝ × ℝ} {B : ℝ} (hB : ∀ p, R p = s → len2 (p - s) ≤ B) {x0 y0 fov h : ℝ}
    (hf : 2 * (len2 (s - (x0, y0)) + B) + h ≤ fov) (v : ℝ × ℝ) (hv : R v = s) :
    |v.1 - x0| + h / 2 ≤ fov / 2 ∧ |v.2 - y0| + h / 2 ≤ fov / 2 := by
  have hd : len2 (v - (x0, y0)) ≤ B + len2 (s - (x0, y0)) := by
    have := len2_add (v - s) (s - (x0, y0))
    rw [sub_add_sub_cancel] at this
    linarith [hB v hv]
  have a := abs_le_len2 (v - (x0, y0))
  simp only [Prod.fst_sub, Prod.snd_sub] at a
  constructor <;> linarith [a.1, a.2]

/-- With a field of view this large `forward_raytrace` reports every image there is, anywhere on the sky: bounded
deflections adding up to `B`, finitely many images, all regular, a fine enough grid and a root finder that works near
them. -/
theorem C128_forward_raytrace {R : ℝ × ℝ → ℝ × ℝ} {s : ℝ × ℝ} {B : ℝ} (hB : ∀ p, R p = s → len2 (p - s) ≤ B)
    (hfin : {v | R v = s}.Finite) (hV : ∃ v, R v = s) (hR : ∀ v, R v = s → ContDiffAt ℝ 1 R v) (M : ℝ × ℝ → M22 ℝ)
    (hM : ∀ v, R v = s → HasJac (fun x y => R (x, y)) (M v).a00 (M v).a01 (M v).a10 (M v).a11 v.1 v.2)
    (hdet : ∀ v, R v = s → (M v).a00 * (M v).a11 - (M v).a01 * (M v).a10 ≠ 0) :
    ∃ δ > 0, ∀ (rf : List (ℝ × ℝ) → List (ℝ × ℝ)) (x0 y0 fov eps η : ℝ) (n max_depth : ℕ), 0 < fov → 2 ≤ n → 0 < eps →
      fov / ((n : ℝ) - 1) ≤ δ → 2 * (len2 (s - (x0, y0)) + B) + fov / ((n : ℝ) - 1) ≤ fov →
      (fov / ((n : ℝ) - 1)) ^ 2 / 2 / 4 ^ max_depth < eps ^ 2 →
      (∀ j < max_depth, 1 / 10 ^ 6 < fov / ((n : ℝ) - 1) / 2 ^ j) →
      (∀ v, R v = s → ∀ l, ∀ p ∈ l, ‖p - v‖ ≤ 2 * (fov / ((n : ℝ) - 1)) →
        ∃ w ∈ rf l, dist2 w v ≤ η ∧ dist2 (R w) s < eps) →
      ∃ l, forwardRaytrace s R rf x0 y0 fov n eps max_depth = .ok l ∧ ∀ v, R v = s → ∃ p ∈ l, dist2 p v < eps + η := by
  obtain ⟨δ, hδ, h⟩ := C59_fine_grid_partial (R := R) (s := s) (V := {v | R v = s}) hfin hV (fun v hv => hv) hR M hM hdet
  refine ⟨δ, hδ, fun rf x0 y0 fov eps η n md h1 h2 h3 h4 h5 h6 h7 h8 => ?_⟩
  refine h rf x0 y0 fov eps η n md h1 h2 h3 h4 ?_ h6 h7 h8
  exact fun v hv => field_contains hB h5 v hv

/-- Images that are all regular and do not run away are finitely many. -/
theorem C128_finite {R : ℝ × ℝ → ℝ × ℝ} {s : ℝ × ℝ} {B : ℝ} (hB : ∀ p, R p = s → len2 (p - s) ≤ B)
    (hcl : IsClosed {v | R v = s}) (hreg : ∀ v, R v = s → ∃ r > 0, RegularImage R v r) : {v | R v = s}.Finite := by
  have hbd : Bornology.IsBounded {v | R v = s} := by
    refine Metric.isBounded_closedBall (x := s) (r := B) |>.subset fun v hv => ?_
    rw [Metric.mem_closedBall, dist_eq_norm]
    refine le_trans ?_ (hB v hv)
    rw [Prod.norm_def, len2]
    refine max_le (abs_le_sqrt ?_) (abs_le_sqrt ?_) <;> nlinarith [sq_nonneg (v - s).1, sq_nonneg (v - s).2]
  have hcomp : IsCompact {v | R v = s} := Metric.isCompact_of_isClosed_isBounded hcl hbd
  refine hcomp.finite ?_
  rw [isDiscrete_iff_forall_exists_isOpen]
  intro v hv
  obtain ⟨r, hr, a, b, c, d, -, h⟩ := hreg v hv
  refine ⟨Metric.ball v r, Metric.isOpen_ball, ?_⟩
  ext w
  constructor
  · rintro ⟨hw, hwv⟩
    have hw' : ‖w - v‖ ≤ r := by rw [← dist_eq_norm]; exact (Metric.mem_ball.1 hw).le
    have := h w v hw' (by simpa using hr.le)
    rw [show R w = s from hwv, show R v = s from hv, sub_self] at this
    have h0 : affine a b c d 0 0 (0 : ℝ × ℝ) = 0 := by simp [affine]
    rw [h0, zero_sub, norm_neg] at this
    have : ‖w - v‖ = 0 := le_antisymm (by linarith) (norm_nonneg _)
    exact sub_eq_zero.1 (norm_eq_zero.1 this)
  · rintro rfl
    exact ⟨Metric.mem_ball_self hr, hv⟩

/-- The same with the library's own root finder (Levenberg-Marquardt), nothing being assumed of it: if all images of a
source are regular, `forward_raytrace` on a fine grid over such a field reports every image there is. -/
theorem C128_all_images {R : ℝ × ℝ → ℝ × ℝ} {jac : (Fin 2 → ℝ) → Matrix (Fin 2) (Fin 2) ℝ} {s : ℝ × ℝ} {B : ℝ}
    (hB : ∀ p, R p = s → len2 (p - s) ≤ B) (hcl : IsClosed {v | R v = s}) (hV : ∃ v, R v = s)
    (hR : ∀ v, R v = s → ContDiffAt ℝ 1 R v)
    (hjac : ∀ z, DifferentiableAt ℝ (fun y : Fin 2 → ℝ => vecOf (R (y 0, y 1))) z →
      ∀ u, (jac z).mulVec u = fderiv ℝ (fun y : Fin 2 → ℝ => vecOf (R (y 0, y 1))) z u) (M : ℝ × ℝ → M22 ℝ)
    (hM : ∀ v, R v = s → HasJac (fun x y => R (x, y)) (M v).a00 (M v).a01 (M v).a10 (M v).a11 v.1 v.2)
    (hdet : ∀ v, R v = s → (M v).a00 * (M v).a11 - (M v).a01 * (M v).a10 ≠ 0) {eps : ℝ} (he : 0 < eps) :
    ∃ δ > 0, ∀ (x0 y0 fov : ℝ) (n max_depth : ℕ), 0 < fov → 2 ≤ n → fov / ((n : ℝ) - 1) ≤ δ →
      2 * (len2 (s - (x0, y0)) + B) + fov / ((n : ℝ) - 1) ≤ fov →
      (fov / ((n : ℝ) - 1)) ^ 2 / 2 / 4 ^ max_depth < eps ^ 2 →
      (∀ j < max_depth, 1 / 10 ^ 6 < fov / ((n : ℝ) - 1) / 2 ^ j) →
      ∃ l, lensForwardRaytrace s R jac x0 y0 fov n eps max_depth = .ok l ∧
        ∀ v, R v = s → ∃ p ∈ l, dist2 p v < eps + 3 * (fov / ((n : ℝ) - 1)) := by
  have hfin := C128_finite hB hcl fun v hv => by
    obtain ⟨r, hr, h⟩ := C59_smooth (hR v hv) (hM v hv) (hdet v hv)
    exact ⟨r, hr, h r le_rfl⟩
  obtain ⟨δ, hδ, H⟩ := C118_images (R := R) (jac := jac) (s := s) (V := {v | R v = s}) hfin hV (fun v hv => hv) hR hjac M hM hdet he
  refine ⟨δ, hδ, fun x0 y0 fov n md h1 h2 h3 h4 h5 h6 => H x0 y0 fov n md h1 h2 h3 ?_ h5 h6⟩
  exact fun v hv => field_contains hB h4 v hv

/-- A point mass: both images of every source off its centre, wherever they are. -/
theorem C128_point_images {R : ℝ × ℝ → ℝ × ℝ} {jac : (Fin 2 → ℝ) → Matrix (Fin 2) (Fin 2) ℝ} (xl yl Rein bx bys : ℝ)
    (hRe : 0 < Rein) (hb : (bx, bys) ≠ (xl, yl))
    (hray : ∀ x y b, raytraceOpt (pointDeflectionOpt xl yl Rein 0) x y = some b → R (x, y) = b)
    (hjac : ∀ z, DifferentiableAt ℝ (fun y : Fin 2 → ℝ => vecOf (R (y 0, y 1))) z →
      ∀ u, (jac z).mulVec u = fderiv ℝ (fun y : Fin 2 → ℝ => vecOf (R (y 0, y 1))) z u) {eps : ℝ} (he : 0 < eps) :
    ∃ δ > 0, ∀ (x0 y0 fov : ℝ) (n max_depth : ℕ), 0 < fov → 2 ≤ n → fov / ((n : ℝ) - 1) ≤ δ →
      2 * (len2 ((xl, yl) - (x0, y0)) + len2 ((bx, bys) - (xl, yl)) + Rein) + fov / ((n : ℝ) - 1) ≤ fov →
      (fov / ((n : ℝ) - 1)) ^ 2 / 2 / 4 ^ max_depth < eps ^ 2 →
      (∀ j < max_depth, 1 / 10 ^ 6 < fov / ((n : ℝ) - 1) / 2 ^ j) →
      ∃ l, lensForwardRaytrace (bx, bys) R jac x0 y0 fov n eps max_depth = .ok l ∧
        ∀ x y, raytraceOpt (pointDeflectionOpt xl yl Rein 0) x y = some (bx, bys) →
          ∃ p ∈ l, dist2 p (x, y) < eps + 3 * (fov / ((n : ℝ) - 1)) := by
  obtain ⟨δ, hδ, H⟩ := C118_point xl yl Rein bx bys hRe hb hray hjac he
  refine ⟨δ, hδ, fun x0 y0 fov n md h1 h2 h3 h4 h5 h6 => H x0 y0 fov n md h1 h2 h3 ?_ h5 h6⟩
  intro x y hxy
  -- an image is within `Rein` of the lens or within `Rein` of the source
  have hne : (x, y) ≠ (xl, yl) := by
    rintro h
    simp only [Prod.mk.injEq] at h
    rw [h.1, h.2] at hxy
    simp [raytraceOpt, pointDeflectionOpt, translateRotate, divOpt, sqrtOpt] at hxy
  have hray' : rayOf (pointDeflection xl yl Rein 0) x y = (bx, bys) := by
    have := point_ray_ne (Rein := Rein) hne
    rw [hxy] at this
    exact (Option.some.inj this).symm
  have hd : len2 ((x, y) - (xl, yl)) ≤ len2 ((bx, bys) - (xl, yl)) + Rein := by
    rcases le_total Rein (len2 ((x, y) - (xl, yl))) with h | h
    · have h1 := C128_point xl yl Rein 0 hRe.le le_rfl (x, y) h
      rw [zero_mul, add_zero] at h1
      have h2 : (x, y) - (bx, bys) = pointDeflection xl yl Rein 0 x y := by
        rw [← hray']
        refine Prod.ext ?_ ?_ <;> simp [rayOf]
      have h3 := len2_add ((x, y) - (bx, bys)) ((bx, bys) - (xl, yl))
      rw [sub_add_sub_cancel, h2] at h3
      simp only at h1
      linarith
    · linarith [len2_nonneg ((bx, bys) - (xl, yl))]
  have h5 := len2_add ((x, y) - (xl, yl)) ((xl, yl) - (x0, y0))
  rw [sub_add_sub_cancel] at h5
  have a := abs_le_len2 ((x, y) - (x0, y0))
  simp only [Prod.fst_sub, Prod.snd_sub] at a
  constructor <;> linarith [a.1, a.2]

/-! ### Instances -/

/-- Two isothermal spheres and a shear of 0.1: a source at the origin has all its images within
`3 / (1 - 0.1)` arcsec. -/
example (z : ℝ) (p : ℝ × ℝ)
    (himg : ((singlePlane [sisLens 1 0 2, sisLens 0 1 1, shearLens 0 0 (6 / 100) (8 / 100)]).thin z).raytrace p.1 p.2 = (0, 0)) :
    len2 p ≤ 10 / 3 := by
  have hsq : √((6 / 100 : ℝ) ^ 2 + (8 / 100) ^ 2) = 1 / 10 := by
    rw [show (6 / 100 : ℝ) ^ 2 + (8 / 100) ^ 2 = (1 / 10) ^ 2 by norm_num, sqrt_sq (by norm_num)]
  have hsh := C128_shear 0 0 (6 / 100) (8 / 100)
  rw [hsq] at hsh
  have h := C128_field
    [⟨sisLens 1 0 2, (1, 0), 0, 2, 0⟩, ⟨sisLens 0 1 1, (0, 1), 0, 1, 0⟩, ⟨shearLens 0 0 (6 / 100) (8 / 100), (0, 0), 0, 0, 1 / 10⟩]
    (by
      intro m hm
      simp only [List.mem_cons, List.not_mem_nil, or_false] at hm
      rcases hm with rfl | rfl | rfl
      · exact C128_sis 1 0 2 0 (by norm_num) le_rfl
      · exact C128_sis 0 1 1 0 (by norm_num) le_rfl
      · exact hsh)
    (by
      intro m hm
      simp only [List.mem_cons, List.not_mem_nil, or_false] at hm
      rcases hm with rfl | rfl | rfl <;> norm_num)
    (by norm_num) z p (0, 0) (0, 0) himg
  rcases h with ⟨m, hm, hlt⟩ | h
  · simp only [List.mem_cons, List.not_mem_nil, or_false] at hm
    have := len2_nonneg (p - m.c)
    rcases hm with rfl | rfl | rfl <;> exact absurd hlt (not_lt.2 this)
  · have h0 : len2 (0 : ℝ × ℝ) = 0 := len2_zero
    have e0 : ((0 : ℝ), (0 : ℝ)) = 0 := rfl
    norm_num [e0, h0] at h
    exact h

example (z : ℝ) := C128_sharp 0 0 z [2, 1] (by simp) (1 / 2) (by norm_num)

/-- Two isothermal spheres at different redshifts. -/
example (p : ℝ × ℝ) :
    ∃ b, mpRaytrace lineEnv 4 ([(sisLens 1 0 2).thin 1, (sisLens 0 1 1).thin 2].map (ThinLensFn.plane lineEnv 4)) p.1 p.2 = some b ∧
      len2 (p - b) ≤ 4 := by
  obtain ⟨b, h1, h2⟩ := C128_multiplane lineEnv 4 (by norm_num [lineEnv]) lineEnv_growing
    [(sisLens 1 0 2).thin 1, (sisLens 0 1 1).thin 2] (by simp) (by simp [LensFn.thin])
    (by
      intro l hl
      simp only [List.mem_cons, List.not_mem_nil, or_false] at hl
      rcases hl with rfl | rfl <;> norm_num [LensFn.thin]) (fun _ => 2)
    (by
      intro l hl p
      simp only [List.mem_cons, List.not_mem_nil, or_false] at hl
      rcases hl with rfl | rfl
      · have := C128_sis 1 0 2 0 (by norm_num) le_rfl p (len2_nonneg _)
        rw [zero_mul, add_zero] at this
        exact this
      · have := C128_sis 0 1 1 0 (by norm_num) le_rfl p (len2_nonneg _)
        rw [zero_mul, add_zero] at this
        exact this.trans (by norm_num)) p
  exact ⟨b, h1, h2.trans (by norm_num)⟩

example := C128_sie 0 0 (1 / 2) 0 1 0 (by norm_num) (by norm_num) (by norm_num) le_rfl

example := C128_sie_sharp 0 0 (1 / 2) 0 1 3 (by norm_num) (by norm_num) (by norm_num) (by norm_num)

example := C128_epl 0 0 (1 / 2) 0 1 (3 / 2) 18 (by norm_num) (by norm_num) (by norm_num) (by norm_num) (by norm_num)
  (by norm_num) 1 0 (by simp)

example := C128_pseudo_jaffe ⟨1, 0, 0, 1, 1, 2, 1, 1, 1, 1 / (4 * π), 0⟩
  ⟨by norm_num, by norm_num, by norm_num, by norm_num, by norm_num, by norm_num, by norm_num, by norm_num⟩ (by norm_num) rfl

example := C128_point_images (R := fun p => rayOf (pointDeflection 0 0 1 0) p.1 p.2) (jac := fun z =>
    LinearMap.toMatrix' (fderiv ℝ (fun y : Fin 2 → ℝ => vecOf (rayOf (pointDeflection 0 0 1 0) (y 0) (y 1))) z).toLinearMap)
  0 0 1 (1 / 2) 0 one_pos (by simp)
  (fun x y b h => by
    have hne : (x, y) ≠ (0, 0) := by
      intro h'
      simp only [Prod.mk.injEq] at h'
      rw [h'.1, h'.2] at h
      simp [raytraceOpt, pointDeflectionOpt, translateRotate, divOpt, sqrtOpt] at h
    rw [point_ray_ne hne] at h
    exact Option.some.inj h)
  (fun z _ u => by
    rw [LinearMap.toMatrix'_mulVec]
    rfl) (eps := 1 / 100) (by norm_num)

/-- The bent map: one image of every source, no further than a 64th away from sources with `|x| < 1`. -/
example : ∃ δ > 0, ∀ (fov : ℝ) (n : ℕ), 0 < fov → 2 ≤ n → fov / ((n : ℝ) - 1) ≤ δ → 1 / 32 + fov / ((n : ℝ) - 1) ≤ fov →
    1 / 10 ^ 6 < fov / ((n : ℝ) - 1) →
    ∃ l, forwardRaytrace (0, 0) (bentMap 1) (fun l => l.map fun _ => (0, -(1 / 64))) 0 0 fov n (fov / ((n : ℝ) - 1)) 1 = .ok l ∧
      ∀ v, bentMap 1 v = (0, 0) → ∃ p ∈ l, dist2 p v < fov / ((n : ℝ) - 1) := by
  have huniq : ∀ v, bentMap 1 v = (0, 0) ↔ v = (0, -(1 / 64)) := by
    intro v
    unfold bentMap
    constructor
    · intro h
      have h1 : v.1 = 0 := congrArg Prod.fst h
      have h2 := congrArg Prod.snd h
      simp only [h1] at h2
      exact Prod.ext h1 (by simp only; linarith)
    · rintro rfl
      norm_num
  have hn : len2 ((0 : ℝ), -(1 / 64 : ℝ)) = 1 / 64 := by
    rw [len2]; simp only; rw [show (0 : ℝ) ^ 2 + (-(1 / 64)) ^ 2 = (1 / 64) ^ 2 by norm_num, sqrt_sq (by norm_num)]
  obtain ⟨δ, hδ, H⟩ := C128_forward_raytrace (R := bentMap 1) (s := (0, 0)) (B := 1 / 64)
    (fun p hp => by
      rw [(huniq p).1 hp, Prod.mk_sub_mk, sub_zero, sub_zero, hn])
    (by
      have : {v | bentMap 1 v = (0, 0)} = {(0, -(1 / 64))} := Set.ext fun v => huniq v
      rw [this]; exact Set.finite_singleton _)
    ⟨_, (huniq _).2 rfl⟩ (fun v _ => by unfold bentMap; fun_prop) (fun v => ⟨1, 0, -v.1 / 32, 1⟩)
    (fun v _ => by
      refine ⟨?_, ?_⟩
      · have : HasFDerivAt (fun p : ℝ × ℝ => p.1) (ContinuousLinearMap.fst ℝ ℝ ℝ) (v.1, v.2) := hasFDerivAt_fst
        refine HasFDerivAt.congr_fderiv this ?_
        ext <;> simp
      · have h1 : HasFDerivAt (fun p : ℝ × ℝ => p.1) (ContinuousLinearMap.fst ℝ ℝ ℝ) (v.1, v.2) := hasFDerivAt_fst
        have h2 : HasFDerivAt (fun p : ℝ × ℝ => p.2) (ContinuousLinearMap.snd ℝ ℝ ℝ) (v.1, v.2) := hasFDerivAt_snd
        have h3 := h2.add (((hasFDerivAt_const ((1 : ℝ) ^ 2) (v.1, v.2)).sub (h1.pow 2)).mul_const (64 * 1 : ℝ)⁻¹)
        refine HasFDerivAt.congr_fderiv (HasFDerivAt.congr_of_eventuallyEq h3 (Filter.Eventually.of_forall fun p => ?_)) ?_
        · simp [bentMap, div_eq_mul_inv]
        · ext
          · simp; ring
          · simp)
    (fun v _ => by norm_num)
  refine ⟨δ, hδ, fun fov n h1 h2 h3 h4 h5 => ?_⟩
  have hh : 0 < fov / ((n : ℝ) - 1) := lt_trans (by positivity) h5
  have h0 : len2 (((0 : ℝ), (0 : ℝ)) - (0, 0)) = 0 := by rw [sub_self]; exact len2_zero
  obtain ⟨l, hl, hv⟩ := H (fun l => l.map fun _ => (0, -(1 / 64))) 0 0 fov (fov / ((n : ℝ) - 1)) 0 n 1 h1 h2 hh h3
    (by rw [h0]; linarith) (by nlinarith [sq_pos_of_pos hh]) (by intro j hj; interval_cases j; simpa using h5)
    (fun v hv l p hp _ => ⟨(0, -(1 / 64)), List.mem_map.2 ⟨p, hp, rfl⟩, by
      rw [(huniq v).1 hv]; simp [dist2], by rw [(huniq _).2 rfl]; simpa [dist2] using hh⟩)
  exact ⟨l, hl, fun v hv' => by simpa using hv v hv'⟩

end Caustics

import Verif.Lemmas.Images
import Verif.Props.EPL
import Verif.Model.Jacobian
import Verif.Model.Multiplane
import Verif.Props.Jacobian
import Mathlib.Data.Set.Card
import Mathlib.Tactic.Linarith
import Mathlib.Tactic.Positivity
import Mathlib.Tactic.NormNum.Basic

/-!
C78: where the simple lenses put the images of a source.
C79: how bright those images are and when they arrive.
-/

open Real

namespace Caustics

/-! ### C78 -/

theorem sis_image_iff {x0 y0 Rein x y bx bys : ℝ} :
    raytraceOpt (sisDeflectionOpt x0 y0 Rein 0) x y = some (bx, bys) ↔
      (x - x0 ≠ 0 ∨ y - y0 ≠ 0) ∧
      (x - x0) - Rein * (x - x0) / √((x - x0) ^ 2 + (y - y0) ^ 2) = bx - x0 ∧
      (y - y0) - Rein * (y - y0) / √((x - x0) ^ 2 + (y - y0) ^ 2) = bys - y0 := by
  by_cases h : x - x0 ≠ 0 ∨ y - y0 ≠ 0
  · have hr := radius_pos h
    have e := sisDeflectionOpt_eq (Rein := Rein) (s := 0) (by rw [add_zero]; exact hr.ne')
    simp only [raytraceOpt, e, sisDeflection, translateRotate, add_zero, Option.bind_eq_bind,
      Option.bind_some, Option.pure_def, Option.some.injEq, Prod.mk.injEq, h, true_and]
    constructor <;> rintro ⟨h1, h2⟩ <;> constructor <;> linarith
  · simp only [h, false_and, iff_false]
    push Not at h
    simp [raytraceOpt, sisDeflectionOpt, translateRotate, h.1, h.2, sqrtOpt, divOpt]

theorem point_image_iff {x0 y0 Rein x y bx bys : ℝ} :
    raytraceOpt (pointDeflectionOpt x0 y0 Rein 0) x y = some (bx, bys) ↔
      (x - x0 ≠ 0 ∨ y - y0 ≠ 0) ∧
      (x - x0) - (fun r => Rein ^ 2 / r) (√((x - x0) ^ 2 + (y - y0) ^ 2)) * (x - x0)
        / √((x - x0) ^ 2 + (y - y0) ^ 2) = bx - x0 ∧
      (y - y0) - (fun r => Rein ^ 2 / r) (√((x - x0) ^ 2 + (y - y0) ^ 2)) * (y - y0)
        / √((x - x0) ^ 2 + (y - y0) ^ 2) = bys - y0 := by
  by_cases h : x - x0 ≠ 0 ∨ y - y0 ≠ 0
  · have hr := radius_pos h
    have e := pointDeflectionOpt_eq (Rein := Rein) (s := 0) (by rw [add_zero]; exact hr.ne')
    simp only [raytraceOpt, e, pointDeflection, translateRotate, add_zero, Option.bind_eq_bind,
      Option.bind_some, Option.pure_def, Option.some.injEq, Prod.mk.injEq, h, true_and]
    have e1 : ∀ u r : ℝ, u * Rein ^ 2 / r ^ 2 = Rein ^ 2 / r * u / r := by intros; ring
    simp only [e1]
    constructor <;> rintro ⟨h1, h2⟩ <;> constructor <;> linarith
  · simp only [h, false_and, iff_false]
    push Not at h
    simp [raytraceOpt, pointDeflectionOpt, translateRotate, h.1, h.2, sqrtOpt, divOpt]

theorem sub_ne_zero_pair {x0 y0 bx bys : ℝ} (h : (bx, bys) ≠ (x0, y0)) :
    bx - x0 ≠ 0 ∨ bys - y0 ≠ 0 := by
  by_contra hc
  push Not at hc
  exact h (by rw [sub_eq_zero.1 hc.1, sub_eq_zero.1 hc.2])

/-- Singular isothermal sphere: a source at distance `β > 0` from the lens centre has an image on its
own side at distance `β + Rein`, and, exactly when `β < Rein`, a second one on the opposite side at
distance `Rein - β`.  There are no others. -/
theorem C78_sis (x0 y0 Rein bx bys x y : ℝ) (hR : 0 < Rein) (hb : (bx, bys) ≠ (x0, y0)) :
    let β := √((bx - x0) ^ 2 + (bys - y0) ^ 2)
    raytraceOpt (sisDeflectionOpt x0 y0 Rein 0) x y = some (bx, bys) ↔
      ((x, y) = (x0 + (1 + Rein / β) * (bx - x0), y0 + (1 + Rein / β) * (bys - y0)) ∨
        (β < Rein ∧
          (x, y) = (x0 + (1 - Rein / β) * (bx - x0), y0 + (1 - Rein / β) * (bys - y0)))) := by
  intro β
  have hb' := sub_ne_zero_pair hb
  have hβ : 0 < β := radius_pos hb'
  have hs : ∀ t : ℝ, t ≠ 0 ∧ t * (1 - Rein / |t|) = β ↔ t = β + Rein ∨ (β < Rein ∧ t = β - Rein) := by
    intro t
    constructor
    · rintro ⟨h0, h⟩
      rcases lt_or_gt_of_ne h0 with hn | hp
      · rw [abs_of_neg hn] at h
        have : t * (1 - Rein / -t) = t + Rein := by field_simp; ring
        right; constructor <;> linarith
      · rw [abs_of_pos hp] at h
        have : t * (1 - Rein / t) = t - Rein := by field_simp
        left; linarith
    · rintro (rfl | ⟨hlt, rfl⟩)
      · have hp : 0 < β + Rein := by positivity
        refine ⟨hp.ne', ?_⟩
        rw [abs_of_pos hp]; field_simp; ring
      · have hn : β - Rein < 0 := by linarith
        refine ⟨hn.ne, ?_⟩
        rw [abs_of_neg hn]
        have := hn.ne
        field_simp
        ring
  rw [sis_image_iff, radial_image (A := fun _ => Rein) hb']
  change (∃ t : ℝ, t ≠ 0 ∧ t * (1 - Rein / |t|) = β ∧ x - x0 = t / β * (bx - x0) ∧
    y - y0 = t / β * (bys - y0)) ↔ _
  have hs' : ∀ t : ℝ, (t ≠ 0 ∧ t * (1 - Rein / |t|) = β ∧ x - x0 = t / β * (bx - x0) ∧
      y - y0 = t / β * (bys - y0)) ↔ (t = β + Rein ∨ (β < Rein ∧ t = β - Rein)) ∧
        x - x0 = t / β * (bx - x0) ∧ y - y0 = t / β * (bys - y0) := by
    intro t; rw [← hs, and_assoc]
  simp only [hs', Prod.mk.injEq]
  have e1 : (β + Rein) / β = 1 + Rein / β := by field_simp
  have e2 : (β - Rein) / β = 1 - Rein / β := by field_simp
  constructor
  · rintro ⟨t, rfl | ⟨hlt, rfl⟩, h1, h2⟩
    · rw [e1] at h1 h2
      left; constructor <;> linarith
    · rw [e2] at h1 h2
      right; refine ⟨hlt, ?_, ?_⟩ <;> linarith
  · rintro (⟨h1, h2⟩ | ⟨hlt, h1, h2⟩)
    · refine ⟨_, Or.inl rfl, ?_, ?_⟩ <;> rw [e1] <;> linarith
    · refine ⟨_, Or.inr ⟨hlt, rfl⟩, ?_, ?_⟩ <;> rw [e2] <;> linarith

/-- A point mass: a source at distance `β > 0` has exactly two images, on the line through centre
and source, at the signed distances `(β ± √(β² + 4 Rein²)) / 2`. -/
theorem C78_point (x0 y0 Rein bx bys x y : ℝ) (hR : 0 < Rein) (hb : (bx, bys) ≠ (x0, y0)) :
    let β := √((bx - x0) ^ 2 + (bys - y0) ^ 2)
    let w := √(β ^ 2 + 4 * Rein ^ 2)
    raytraceOpt (pointDeflectionOpt x0 y0 Rein 0) x y = some (bx, bys) ↔
      ((x, y) = (x0 + (1 + w / β) / 2 * (bx - x0), y0 + (1 + w / β) / 2 * (bys - y0)) ∨
       (x, y) = (x0 + (1 - w / β) / 2 * (bx - x0), y0 + (1 - w / β) / 2 * (bys - y0))) := by
  intro β w
  have hb' := sub_ne_zero_pair hb
  have hβ : 0 < β := radius_pos hb'
  have hw2 : w ^ 2 = β ^ 2 + 4 * Rein ^ 2 := sq_sqrt (by positivity)
  have hw : 0 < w := sqrt_pos.2 (by positivity)
  have hs : ∀ t : ℝ, t ≠ 0 ∧ t * (1 - (fun r => Rein ^ 2 / r) |t| / |t|) = β ↔
      t = (β + w) / 2 ∨ t = (β - w) / 2 := by
    intro t
    have e : t ≠ 0 → (t * (1 - (fun r => Rein ^ 2 / r) |t| / |t|) = β ↔
        (t - (β + w) / 2) * (t - (β - w) / 2) = 0) := by
      intro h0
      have : t * (1 - (fun r => Rein ^ 2 / r) |t| / |t|) = (t ^ 2 - Rein ^ 2) / t := by
        simp only [div_div, ← sq, sq_abs]; field_simp
      rw [this, div_eq_iff h0]
      constructor <;> intro h
      · linear_combination h - (1 / 4) * hw2
      · linear_combination h + (1 / 4) * hw2
    constructor
    · rintro ⟨h0, h⟩
      rcases mul_eq_zero.1 ((e h0).1 h) with h | h
      · left; linarith
      · right; linarith
    · intro h
      have h0 : t ≠ 0 := by
        rcases h with rfl | rfl
        · positivity
        · intro h
          have h1 : β = w := by linarith
          rw [← h1] at hw2
          have : 0 < 4 * Rein ^ 2 := by positivity
          linarith
      refine ⟨h0, (e h0).2 ?_⟩
      rcases h with rfl | rfl <;> ring
  rw [point_image_iff, radial_image (A := fun r => Rein ^ 2 / r) hb']
  have hs' : ∀ t : ℝ, (t ≠ 0 ∧ t * (1 - (fun r => Rein ^ 2 / r) |t| / |t|) = β ∧
      x - x0 = t / β * (bx - x0) ∧ y - y0 = t / β * (bys - y0)) ↔
        (t = (β + w) / 2 ∨ t = (β - w) / 2) ∧
        x - x0 = t / β * (bx - x0) ∧ y - y0 = t / β * (bys - y0) := by
    intro t; rw [← hs, and_assoc]
  change (∃ t : ℝ, t ≠ 0 ∧ t * (1 - (fun r => Rein ^ 2 / r) |t| / |t|) = β ∧
    x - x0 = t / β * (bx - x0) ∧ y - y0 = t / β * (bys - y0)) ↔ _
  simp only [hs', Prod.mk.injEq]
  have e1 : (β + w) / 2 / β = (1 + w / β) / 2 := by field_simp
  have e2 : (β - w) / 2 / β = (1 - w / β) / 2 := by field_simp
  constructor
  · rintro ⟨t, rfl | rfl, h1, h2⟩
    · rw [e1] at h1 h2
      left; constructor <;> linarith
    · rw [e2] at h1 h2
      right; constructor <;> linarith
  · rintro (⟨h1, h2⟩ | ⟨h1, h2⟩)
    · refine ⟨_, Or.inl rfl, ?_, ?_⟩ <;> rw [e1] <;> linarith
    · refine ⟨_, Or.inr rfl, ?_, ?_⟩ <;> rw [e2] <;> linarith

theorem dist_eq_iff {u v R : ℝ} (hR : 0 < R) : √(u ^ 2 + v ^ 2) = R ↔ u ^ 2 + v ^ 2 = R ^ 2 := by
  rw [sqrt_eq_iff_mul_self_eq_of_pos hR, ← sq, eq_comm]

/-- A source exactly behind the centre is imaged into the full circle of radius `Rein`, and nowhere
else. -/
theorem C78_ring (x0 y0 Rein x y : ℝ) (hR : 0 < Rein) :
    (raytraceOpt (sisDeflectionOpt x0 y0 Rein 0) x y = some (x0, y0) ↔
      (x - x0) ^ 2 + (y - y0) ^ 2 = Rein ^ 2) ∧
    (raytraceOpt (pointDeflectionOpt x0 y0 Rein 0) x y = some (x0, y0) ↔
      (x - x0) ^ 2 + (y - y0) ^ 2 = Rein ^ 2) := by
  rw [sis_image_iff, point_image_iff, sub_self, sub_self]
  by_cases h : x - x0 ≠ 0 ∨ y - y0 ≠ 0
  · have hr := radius_pos h
    rw [radial_ring (A := fun _ => Rein) h, radial_ring (A := fun r => Rein ^ 2 / r) h, ← dist_eq_iff hR]
    refine ⟨by simp [h, eq_comm], ?_⟩
    simp only [h, true_and]
    rw [div_eq_iff hr.ne', ← sq, pow_left_inj₀ hR.le hr.le two_ne_zero, eq_comm]
  · simp only [h, false_and, false_iff, and_self]
    push Not at h
    rw [h.1, h.2]
    intro h0
    have : 0 < Rein ^ 2 := by positivity
    linarith

/-- How many images there are. -/
theorem C78_count (x0 y0 Rein bx bys : ℝ) (hR : 0 < Rein) (hb : (bx, bys) ≠ (x0, y0)) :
    {p : ℝ × ℝ | raytraceOpt (sisDeflectionOpt x0 y0 Rein 0) p.1 p.2 = some (bx, bys)}.ncard =
      (if √((bx - x0) ^ 2 + (bys - y0) ^ 2) < Rein then 2 else 1) ∧
    {p : ℝ × ℝ | raytraceOpt (pointDeflectionOpt x0 y0 Rein 0) p.1 p.2 = some (bx, bys)}.ncard = 2 := by
  have hb' := sub_ne_zero_pair hb
  have hβ := radius_pos hb'
  have hne : ∀ k l : ℝ, k ≠ l → (x0 + k * (bx - x0), y0 + k * (bys - y0)) ≠
      (x0 + l * (bx - x0), y0 + l * (bys - y0)) := by
    intro k l hkl h
    rw [Prod.mk.injEq, add_right_inj, add_right_inj] at h
    rcases hb' with h0 | h0
    · exact hkl (mul_right_cancel₀ h0 h.1)
    · exact hkl (mul_right_cancel₀ h0 h.2)
  constructor
  · have := fun p : ℝ × ℝ => C78_sis x0 y0 Rein bx bys p.1 p.2 hR hb
    simp only [this]
    split
    · rename_i hlt
      simp only [hlt, true_and]
      refine Set.ncard_pair (hne _ _ ?_)
      have : 0 < Rein / √((bx - x0) ^ 2 + (bys - y0) ^ 2) := by positivity
      intro h; linarith
    · rename_i hlt
      simp only [hlt, false_and, or_false]
      exact Set.ncard_singleton _
  · have := fun p : ℝ × ℝ => C78_point x0 y0 Rein bx bys p.1 p.2 hR hb
    simp only [this]
    refine Set.ncard_pair (hne _ _ ?_)
    have : 0 < √(√((bx - x0) ^ 2 + (bys - y0) ^ 2) ^ 2 + 4 * Rein ^ 2)
        / √((bx - x0) ^ 2 + (bys - y0) ^ 2) := by positivity
    intro h; linarith

/-- A mass sheet with external shear about the same centre: one image, wherever the source is, unless
the lens is critical (`(1 - kappa)² = gamma1² + gamma2²`). -/
theorem C78_sheet_shear (x0 y0 kappa g1 g2 bx bys x y : ℝ)
    (h : (1 - kappa) ^ 2 - g1 ^ 2 - g2 ^ 2 ≠ 0) :
    let D := (1 - kappa) ^ 2 - g1 ^ 2 - g2 ^ 2
    (x - (sheetDeflection x0 y0 kappa x y).1 - (shearDeflection x0 y0 g1 g2 x y).1,
      y - (sheetDeflection x0 y0 kappa x y).2 - (shearDeflection x0 y0 g1 g2 x y).2) = (bx, bys) ↔
    (x, y) = (x0 + ((1 - kappa + g1) * (bx - x0) + g2 * (bys - y0)) / D,
      y0 + (g2 * (bx - x0) + (1 - kappa - g1) * (bys - y0)) / D) := by
  intro D
  simp only [sheetDeflection, shearDeflection, translateRotate, Prod.mk.injEq]
  have hD : D ≠ 0 := h
  constructor
  · rintro ⟨h1, h2⟩
    rw [← sub_eq_iff_eq_add' (a := x), ← sub_eq_iff_eq_add' (a := y), eq_div_iff hD, eq_div_iff hD]
    constructor
    · linear_combination (1 - kappa + g1) * h1 + g2 * h2
    · linear_combination g2 * h1 + (1 - kappa - g1) * h2
  · rintro ⟨h1, h2⟩
    rw [← sub_eq_iff_eq_add', eq_div_iff hD] at h1 h2
    constructor
    · refine mul_right_cancel₀ hD ?_
      linear_combination (1 - kappa - g1) * h1 - g2 * h2
    · refine mul_right_cancel₀ hD ?_
      linear_combination -g2 * h1 + (1 - kappa + g1) * h2

/-- The circular power law: the deflection is `(Rein / r)^t` times the displacement. -/
theorem epl_circular (x0 y0 phi Rein t : ℝ) (N : ℕ) (cs : Option ℕ) (hN : 1 ≤ N)
    (hcs : ChunkOk N cs) (x y : ℝ) :
    eplDeflection x0 y0 1 phi Rein t N cs x y =
      .ok ((Rein / √((x - x0) ^ 2 + (y - y0) ^ 2)) ^ t * (x - x0),
        (Rein / √((x - x0) ^ 2 + (y - y0) ^ 2)) ^ t * (y - y0)) := by
  simp only [eplDeflection, eplFrame_eq 1 Rein t N hN cs hcs]
  change Except.ok _ = Except.ok _
  congr 1
  have hphi : ∀ X Y, eplPhi 1 X Y = 0 := by intro X Y; simp [eplPhi]
  have hsum : ∀ X Y, eplSum (eplZ 1 X Y) (eplPhi 1 X Y) t N = eplZ 1 X Y := by
    intro X Y
    rw [hphi, eplSum, Finset.sum_eq_single_of_mem 0 (by simp; omega)]
    · simp [eplCoef]
    · intro n _ hn; simp [zero_pow hn]
  have hfield : ∀ X Y, eplField 1 Rein t N X Y = (((Rein / √(X ^ 2 + Y ^ 2)) ^ t : ℝ) : ℂ) * ⟨X, Y⟩ := by
    intro X Y
    rw [eplField, hsum]
    simp [eplZ]
    norm_num
  simp only [hfield, Complex.re_ofReal_mul, Complex.im_ofReal_mul]
  simp only [translateRotate, derotate, cos_neg, sin_neg]
  have cs' := sin_sq_add_cos_sq phi
  have er : ((x - x0) * cos phi + (y - y0) * sin phi) ^ 2
      + ((y - y0) * cos phi - (x - x0) * sin phi) ^ 2 = (x - x0) ^ 2 + (y - y0) ^ 2 := by
    linear_combination ((x - x0) ^ 2 + (y - y0) ^ 2) * cs'
  have er' : ((x - x0) * cos phi + (y - y0) * sin phi) ^ 2
      + (-(x - x0) * sin phi + (y - y0) * cos phi) ^ 2 = (x - x0) ^ 2 + (y - y0) ^ 2 := by
    linear_combination ((x - x0) ^ 2 + (y - y0) ^ 2) * cs'
  simp only [er, er']
  generalize (Rein / √((x - x0) ^ 2 + (y - y0) ^ 2)) ^ t = w
  ext
  · simp only
    linear_combination (w * (x - x0)) * cs'
  · simp only
    linear_combination (w * (y - y0)) * cs'

/-- The Einstein ring of a circular power law of any slope `t ≠ 0` has radius `Rein`.  The centre of the lens
is reported as a further image (there `nan_to_num` replaces the deflection by zero). -/
theorem C78_epl_ring (x0 y0 phi Rein t : ℝ) (N : ℕ) (cs : Option ℕ) (hN : 1 ≤ N)
    (hcs : ChunkOk N cs) (hR : 0 < Rein) (ht : t ≠ 0) (x y : ℝ) :
    (∃ a, eplDeflection x0 y0 1 phi Rein t N cs x y = .ok a ∧ (x - a.1, y - a.2) = (x0, y0)) ↔
      (x, y) = (x0, y0) ∨ (x - x0) ^ 2 + (y - y0) ^ 2 = Rein ^ 2 := by
  rw [epl_circular x0 y0 phi Rein t N cs hN hcs x y, ← dist_eq_iff hR]
  simp only [Except.ok.injEq, exists_eq_left', Prod.mk.injEq]
  by_cases h : x - x0 ≠ 0 ∨ y - y0 ≠ 0
  · have hr := radius_pos h
    have hc : ¬ (x = x0 ∧ y = y0) := by
      rintro ⟨rfl, rfl⟩; simp at h
    simp only [hc, false_or]
    generalize √((x - x0) ^ 2 + (y - y0) ^ 2) = r at *
    have key : (Rein / r) ^ t = 1 ↔ r = Rein := by
      rw [← one_rpow t, rpow_left_inj (by positivity) zero_le_one ht, div_eq_one_iff_eq hr.ne', eq_comm]
    rw [← key]
    constructor
    · rintro ⟨h1, h2⟩
      rcases h with h | h
      · exact mul_right_cancel₀ h (by linarith)
      · exact mul_right_cancel₀ h (by linarith)
    · intro e
      rw [e]; constructor <;> ring
  · push Not at h
    rw [sub_eq_zero, sub_eq_zero] at h
    simp [h.1, h.2]

/-! ### C79 -/

/-- The magnification of a lens with radial deflection `A`: the tangential times the radial
stretch. -/
theorem C79_radial {A : ℝ → ℝ} {A' x0 y0 x y : ℝ} (h : (x, y) ≠ (x0, y0))
    (hA : HasDerivAt A A' (√((x - x0) ^ 2 + (y - y0) ^ 2))) {α : ℝ → ℝ → ℝ × ℝ}
    (hα : ∀ x y, α x y = (A (√((x - x0) ^ 2 + (y - y0) ^ 2)) * (x - x0) / √((x - x0) ^ 2 + (y - y0) ^ 2),
      A (√((x - x0) ^ 2 + (y - y0) ^ 2)) * (y - y0) / √((x - x0) ^ 2 + (y - y0) ^ 2))) {M : M22 ℝ}
    (hM : HasJac (fun x y => (x - (α x y).1, y - (α x y).2)) M.a00 M.a01 M.a10 M.a11 x y) :
    pixelMagnification M = 1 / |(1 - A (√((x - x0) ^ 2 + (y - y0) ^ 2))
      / √((x - x0) ^ 2 + (y - y0) ^ 2)) * (1 - A')| := by
  have h' := sub_ne_zero_pair h
  have hR := radius_pos h'
  have hsq := radius_sq (x - x0) (y - y0)
  have hj := hasJac_shift (hasJac_radial h' hA)
  have e : α = fun x y => (A (√((x - x0) ^ 2 + (y - y0) ^ 2)) * (x - x0)
      / √((x - x0) ^ 2 + (y - y0) ^ 2),
      A (√((x - x0) ^ 2 + (y - y0) ^ 2)) * (y - y0) / √((x - x0) ^ 2 + (y - y0) ^ 2)) := by
    funext x y; exact hα x y
  rw [e] at hM
  obtain ⟨hM', -⟩ := C38_magnification (J := ⟨_, _, _, _⟩) hj rfl hM
  rw [hM', pixelMagnification]
  congr 2
  simp only [lensEqJac]
  generalize √((x - x0) ^ 2 + (y - y0) ^ 2) = R at *
  generalize A R = a at *
  have hB : (A' - a / R) / R ^ 2 * R ^ 2 = A' - a / R := by field_simp
  generalize (A' - a / R) / R ^ 2 = B at *
  generalize a / R = T at *
  rw [hsq] at hB
  linear_combination -(1 - T) * hB

theorem sis_magnification {x0 y0 Rein x y : ℝ} (h : (x, y) ≠ (x0, y0)) {M : M22 ℝ}
    (hM : HasJac (fun x y => (x - (sisDeflection x0 y0 Rein 0 x y).1, y - (sisDeflection x0 y0 Rein 0 x y).2))
      M.a00 M.a01 M.a10 M.a11 x y) :
    pixelMagnification M = 1 / |1 - Rein / √((x - x0) ^ 2 + (y - y0) ^ 2)| := by
  rw [C79_radial (A := fun _ => Rein) h (hasDerivAt_const _ Rein) (fun x y => ?_) hM, sub_zero, mul_one]
  simp [sisDeflection, translateRotate]

theorem point_magnification {x0 y0 Rein x y : ℝ} (h : (x, y) ≠ (x0, y0)) {M : M22 ℝ}
    (hM : HasJac (fun x y => (x - (pointDeflection x0 y0 Rein 0 x y).1,
        y - (pointDeflection x0 y0 Rein 0 x y).2)) M.a00 M.a01 M.a10 M.a11 x y) :
    pixelMagnification M = 1 / |1 - (Rein / √((x - x0) ^ 2 + (y - y0) ^ 2)) ^ 4| := by
  have hr := radius_pos (sub_ne_zero_pair h)
  have hd : HasDerivAt (fun r => Rein ^ 2 / r) (-(Rein ^ 2) / (√((x - x0) ^ 2 + (y - y0) ^ 2)) ^ 2)
      (√((x - x0) ^ 2 + (y - y0) ^ 2)) := by
    refine ((hasDerivAt_const _ (Rein ^ 2)).div (hasDerivAt_id _) hr.ne').congr_deriv ?_
    simp
  rw [C79_radial (A := fun r => Rein ^ 2 / r) h hd (fun x y => ?_) hM]
  · congr 2
    field_simp
    ring
  · simp only [pointDeflection, translateRotate, add_zero]
    ext <;> simp only <;> ring

/-- The distance from the centre of a point on the line through centre and source. -/
theorem line_dist (x0 y0 bx bys k : ℝ) :
    √((x0 + k * (bx - x0) - x0) ^ 2 + (y0 + k * (bys - y0) - y0) ^ 2) =
      |k| * √((bx - x0) ^ 2 + (bys - y0) ^ 2) := by
  rw [← sqrt_sq_eq_abs, ← sqrt_mul (sq_nonneg k)]
  congr 1; ring

theorem line_ne {x0 y0 bx bys k : ℝ} (hb : (bx, bys) ≠ (x0, y0)) (hk : k ≠ 0) :
    (x0 + k * (bx - x0), y0 + k * (bys - y0)) ≠ (x0, y0) := by
  intro h
  rw [Prod.mk.injEq] at h
  rcases sub_ne_zero_pair hb with h0 | h0
  · exact (mul_ne_zero hk h0) (by linarith [h.1])
  · exact (mul_ne_zero hk h0) (by linarith [h.2])

/-- Singular isothermal sphere, source at distance `0 < β < Rein`: the two images found by solving the
lens equation have total magnification `2 Rein / β`, and the outer one is brighter by 2. -/
theorem C79_sis (x0 y0 Rein bx bys : ℝ) (hb : (bx, bys) ≠ (x0, y0))
    (hlt : √((bx - x0) ^ 2 + (bys - y0) ^ 2) < Rein) (p m : ℝ × ℝ) (hpm : p ≠ m)
    (hp : raytraceOpt (sisDeflectionOpt x0 y0 Rein 0) p.1 p.2 = some (bx, bys))
    (hm : raytraceOpt (sisDeflectionOpt x0 y0 Rein 0) m.1 m.2 = some (bx, bys)) {P M : M22 ℝ}
    (hP : HasJac (fun x y => (x - (sisDeflection x0 y0 Rein 0 x y).1, y - (sisDeflection x0 y0 Rein 0 x y).2))
      P.a00 P.a01 P.a10 P.a11 p.1 p.2)
    (hM : HasJac (fun x y => (x - (sisDeflection x0 y0 Rein 0 x y).1, y - (sisDeflection x0 y0 Rein 0 x y).2))
      M.a00 M.a01 M.a10 M.a11 m.1 m.2) :
    pixelMagnification P + pixelMagnification M =
        2 * Rein / √((bx - x0) ^ 2 + (bys - y0) ^ 2) ∧
      |pixelMagnification P - pixelMagnification M| = 2 := by
  have hb' := sub_ne_zero_pair hb
  have hβ := radius_pos hb'
  have hR : 0 < Rein := hβ.trans hlt
  have key : ∀ k, k ≠ 0 → ∀ {P : M22 ℝ}, HasJac (fun x y => (x - (sisDeflection x0 y0 Rein 0 x y).1,
      y - (sisDeflection x0 y0 Rein 0 x y).2)) P.a00 P.a01 P.a10 P.a11 (x0 + k * (bx - x0))
      (y0 + k * (bys - y0)) → pixelMagnification P =
        1 / |1 - Rein / (|k| * √((bx - x0) ^ 2 + (bys - y0) ^ 2))| := by
    intro k hk P hP
    rw [sis_magnification (line_ne hb hk) hP, line_dist]
  have hp := (C78_sis x0 y0 Rein bx bys p.1 p.2 hR hb).1 hp
  have hm := (C78_sis x0 y0 Rein bx bys m.1 m.2 hR hb).1 hm
  set β := √((bx - x0) ^ 2 + (bys - y0) ^ 2) with hβd
  have k1 : 0 < 1 + Rein / β := by positivity
  have k2 : 1 - Rein / β < 0 := by rw [sub_neg, lt_div_iff₀ hβ]; linarith
  have v1 : 1 / |1 - Rein / (|1 + Rein / β| * β)| = (β + Rein) / β := by
    rw [abs_of_pos k1]
    have : 1 - Rein / ((1 + Rein / β) * β) = β / (β + Rein) := by
      have : (1 + Rein / β) * β = β + Rein := by field_simp
      rw [this]
      have : 0 < β + Rein := by positivity
      field_simp; ring
    rw [this, abs_of_pos (by positivity), one_div_div]
  have v2 : 1 / |1 - Rein / (|1 - Rein / β| * β)| = (Rein - β) / β := by
    rw [abs_of_neg k2]
    have h0 : 0 < Rein - β := by linarith
    have : 1 - Rein / (-(1 - Rein / β) * β) = -(β / (Rein - β)) := by
      have : -(1 - Rein / β) * β = Rein - β := by field_simp; ring
      rw [this]
      field_simp; ring
    rw [this, abs_neg, abs_of_pos (by positivity), one_div_div]
  obtain ⟨p1, p2⟩ := p
  obtain ⟨m1, m2⟩ := m
  simp only at hp hm hP hM
  rcases hp with hp | ⟨-, hp⟩ <;> rcases hm with hm | ⟨-, hm⟩
  · exact absurd (hp.trans hm.symm) hpm
  · rw [Prod.mk.injEq] at hp hm
    rw [hp.1, hp.2] at hP
    rw [hm.1, hm.2] at hM
    rw [key _ k1.ne' hP, key _ k2.ne hM, v1, v2]
    constructor
    · field_simp; ring
    · rw [← sub_div, show β + Rein - (Rein - β) = 2 * β by ring, mul_div_assoc, div_self hβ.ne']
      norm_num
  · rw [Prod.mk.injEq] at hp hm
    rw [hp.1, hp.2] at hP
    rw [hm.1, hm.2] at hM
    rw [key _ k2.ne hP, key _ k1.ne' hM, v1, v2]
    constructor
    · field_simp; ring
    · rw [← sub_div, show Rein - β - (β + Rein) = -(2 * β) by ring, abs_div, abs_neg, abs_of_pos hβ,
        abs_of_pos (by positivity), mul_div_assoc, div_self hβ.ne', mul_one]
  · exact absurd (hp.trans hm.symm) hpm

/-- A point mass: the two images have total magnification `(β² + 2 Rein²) / (β √(β² + 4 Rein²))`
(Paczyński's formula), and their magnifications differ by 1. -/
theorem C79_point (x0 y0 Rein bx bys : ℝ) (hR : 0 < Rein) (hb : (bx, bys) ≠ (x0, y0))
    (p m : ℝ × ℝ) (hpm : p ≠ m)
    (hp : raytraceOpt (pointDeflectionOpt x0 y0 Rein 0) p.1 p.2 = some (bx, bys))
    (hm : raytraceOpt (pointDeflectionOpt x0 y0 Rein 0) m.1 m.2 = some (bx, bys)) {P M : M22 ℝ}
    (hP : HasJac (fun x y => (x - (pointDeflection x0 y0 Rein 0 x y).1,
      y - (pointDeflection x0 y0 Rein 0 x y).2)) P.a00 P.a01 P.a10 P.a11 p.1 p.2)
    (hM : HasJac (fun x y => (x - (pointDeflection x0 y0 Rein 0 x y).1,
      y - (pointDeflection x0 y0 Rein 0 x y).2)) M.a00 M.a01 M.a10 M.a11 m.1 m.2) :
    let β := √((bx - x0) ^ 2 + (bys - y0) ^ 2)
    pixelMagnification P + pixelMagnification M =
        (β ^ 2 + 2 * Rein ^ 2) / (β * √(β ^ 2 + 4 * Rein ^ 2)) ∧
      |pixelMagnification P - pixelMagnification M| = 1 := by
  intro β
  have hb' := sub_ne_zero_pair hb
  have hβ : 0 < β := radius_pos hb'
  have key : ∀ k, k ≠ 0 → ∀ {P : M22 ℝ}, HasJac (fun x y => (x - (pointDeflection x0 y0 Rein 0 x y).1,
      y - (pointDeflection x0 y0 Rein 0 x y).2)) P.a00 P.a01 P.a10 P.a11 (x0 + k * (bx - x0))
      (y0 + k * (bys - y0)) → pixelMagnification P = 1 / |1 - (Rein / (|k| * β)) ^ 4| := by
    intro k hk P hP
    rw [point_magnification (line_ne hb hk) hP, line_dist]
  have hp := (C78_point x0 y0 Rein bx bys p.1 p.2 hR hb).1 hp
  have hm := (C78_point x0 y0 Rein bx bys m.1 m.2 hR hb).1 hm
  change _ = (x0 + (1 + √(β ^ 2 + 4 * Rein ^ 2) / β) / 2 * (bx - x0), _) ∨
    _ = (x0 + (1 - √(β ^ 2 + 4 * Rein ^ 2) / β) / 2 * (bx - x0), _) at hp hm
  have hw2 : √(β ^ 2 + 4 * Rein ^ 2) ^ 2 = β ^ 2 + 4 * Rein ^ 2 := sq_sqrt (by positivity)
  have hw : 0 < √(β ^ 2 + 4 * Rein ^ 2) := sqrt_pos.2 (by positivity)
  have hwβ : β < √(β ^ 2 + 4 * Rein ^ 2) := lt_sqrt_of_sq_lt (by
    have : 0 < Rein ^ 2 := by positivity
    linarith)
  have k1 : 0 < (1 + √(β ^ 2 + 4 * Rein ^ 2) / β) / 2 := by positivity
  have k2 : (1 - √(β ^ 2 + 4 * Rein ^ 2) / β) / 2 < 0 := by
    have : 1 < √(β ^ 2 + 4 * Rein ^ 2) / β := by rw [lt_div_iff₀ hβ]; linarith
    linarith
  have v1 : 1 / |1 - (Rein / (|(1 + √(β ^ 2 + 4 * Rein ^ 2) / β) / 2| * β)) ^ 4| =
      (β + √(β ^ 2 + 4 * Rein ^ 2)) ^ 2 / (4 * β * √(β ^ 2 + 4 * Rein ^ 2)) := by
    rw [abs_of_pos k1]
    generalize √(β ^ 2 + 4 * Rein ^ 2) = w at *
    have e : (1 + w / β) / 2 * β = (β + w) / 2 := by field_simp
    have : 1 - (Rein / ((1 + w / β) / 2 * β)) ^ 4 = 4 * β * w / (β + w) ^ 2 := by
      rw [e, div_pow, div_pow, show Rein ^ 4 = ((w - β) * (w + β) / 4) ^ 2 by
        rw [show Rein ^ 4 = (Rein ^ 2) ^ 2 by ring]; congr 1; linarith]
      have : 0 < β + w := by positivity
      field_simp
      ring
    rw [this, abs_of_pos (by positivity), one_div_div]
  have v2 : 1 / |1 - (Rein / (|(1 - √(β ^ 2 + 4 * Rein ^ 2) / β) / 2| * β)) ^ 4| =
      (√(β ^ 2 + 4 * Rein ^ 2) - β) ^ 2 / (4 * β * √(β ^ 2 + 4 * Rein ^ 2)) := by
    rw [abs_of_neg k2]
    generalize √(β ^ 2 + 4 * Rein ^ 2) = w at *
    have e : -((1 - w / β) / 2) * β = (w - β) / 2 := by field_simp; ring
    have h0 : 0 < w - β := by linarith
    have : 1 - (Rein / (-((1 - w / β) / 2) * β)) ^ 4 = -(4 * β * w / (w - β) ^ 2) := by
      rw [e, div_pow, div_pow, show Rein ^ 4 = ((w - β) * (w + β) / 4) ^ 2 by
        rw [show Rein ^ 4 = (Rein ^ 2) ^ 2 by ring]; congr 1; linarith]
      field_simp
      ring
    rw [this, abs_neg, abs_of_pos (by positivity), one_div_div]
  obtain ⟨p1, p2⟩ := p
  obtain ⟨m1, m2⟩ := m
  simp only at hp hm hP hM
  generalize √(β ^ 2 + 4 * Rein ^ 2) = w at *
  have hsum : (β + w) ^ 2 / (4 * β * w) + (w - β) ^ 2 / (4 * β * w) = (β ^ 2 + 2 * Rein ^ 2) / (β * w) := by
    have : Rein ^ 2 = (w ^ 2 - β ^ 2) / 4 := by linarith
    rw [this]
    field_simp
    ring
  have hdiff : (β + w) ^ 2 / (4 * β * w) - (w - β) ^ 2 / (4 * β * w) = 1 := by
    field_simp
    ring
  rcases hp with hp | hp <;> rcases hm with hm | hm
  · exact absurd (hp.trans hm.symm) hpm
  · rw [Prod.mk.injEq] at hp hm
    rw [hp.1, hp.2] at hP
    rw [hm.1, hm.2] at hM
    rw [key _ k1.ne' hP, key _ k2.ne hM, v1, v2]
    exact ⟨hsum, by rw [hdiff, abs_one]⟩
  · rw [Prod.mk.injEq] at hp hm
    rw [hp.1, hp.2] at hP
    rw [hm.1, hm.2] at hM
    rw [key _ k2.ne hP, key _ k1.ne' hM, v1, v2]
    exact ⟨by rw [add_comm]; exact hsum, by rw [abs_sub_comm, hdiff, abs_one]⟩
  · exact absurd (hp.trans hm.symm) hpm

/-- The inner image of a singular isothermal sphere arrives later than the outer one, by the distance factor times
`2 Rein β`. -/
theorem C79_sis_delay (e : MPEnv ℝ) (zs z x0 y0 Rein bx bys : ℝ) (hb : (bx, bys) ≠ (x0, y0))
    (hlt : √((bx - x0) ^ 2 + (bys - y0) ^ 2) < Rein) (p m : ℝ × ℝ)
    (hp : raytraceOpt (sisDeflectionOpt x0 y0 Rein 0) p.1 p.2 = some (bx, bys))
    (hm : raytraceOpt (sisDeflectionOpt x0 y0 Rein 0) m.1 m.2 = some (bx, bys))
    (hfar : (m.1 - x0) ^ 2 + (m.2 - y0) ^ 2 < (p.1 - x0) ^ 2 + (p.2 - y0) ^ 2) :
    let F := (1 + z) / e.cMpcS * (e.angDist z * e.angDist zs / e.angDist12 z zs)
      * e.arcsecToRad ^ 2 / e.daysToSeconds
    (sisThin z x0 y0 Rein).timeDelay e zs true true m.1 m.2
        - (sisThin z x0 y0 Rein).timeDelay e zs true true p.1 p.2 =
      F * (2 * Rein * √((bx - x0) ^ 2 + (bys - y0) ^ 2)) := by
  intro F
  have hb' := sub_ne_zero_pair hb
  have hβ := radius_pos hb'
  have hR : 0 < Rein := hβ.trans hlt
  have hp := (C78_sis x0 y0 Rein bx bys p.1 p.2 hR hb).1 hp
  have hm := (C78_sis x0 y0 Rein bx bys m.1 m.2 hR hb).1 hm
  have hT : ∀ k, k ≠ 0 → (sisThin z x0 y0 Rein).timeDelay e zs true true (x0 + k * (bx - x0))
      (y0 + k * (bys - y0)) = F * (Rein ^ 2 / 2 - Rein * (|k| * √((bx - x0) ^ 2 + (bys - y0) ^ 2))) := by
    intro k hk
    have h0 := radius_pos (sub_ne_zero_pair (line_ne hb hk))
    have hv := (C52_value e zs (sisThin z x0 y0 Rein) (x0 + k * (bx - x0)) (y0 + k * (bys - y0))).1
    rw [hv]
    have hsq := radius_sq (x0 + k * (bx - x0) - x0) (y0 + k * (bys - y0) - y0)
    rw [← line_dist x0 y0 bx bys k]
    simp only [sisThin, ThinLensFn.raytrace, sisDeflection, sisPotential, translateRotate, add_zero]
    generalize √((x0 + k * (bx - x0) - x0) ^ 2 + (y0 + k * (bys - y0) - y0) ^ 2) = r at *
    congr 2
    rw [sub_sub_cancel, sub_sub_cancel, div_pow, div_pow, ← add_div, mul_pow, mul_pow, ← mul_add, ← hsq]
    field_simp
  set β := √((bx - x0) ^ 2 + (bys - y0) ^ 2) with hβd
  have k1 : 0 < 1 + Rein / β := by positivity
  have k2 : 1 - Rein / β < 0 := by rw [sub_neg, lt_div_iff₀ hβ]; linarith
  obtain ⟨p1, p2⟩ := p
  obtain ⟨m1, m2⟩ := m
  simp only [Prod.mk.injEq] at hp hm hfar ⊢
  have hd : ∀ k : ℝ, (x0 + k * (bx - x0) - x0) ^ 2 + (y0 + k * (bys - y0) - y0) ^ 2 = k ^ 2 * β ^ 2 := by
    intro k; rw [hβd, radius_sq]; ring
  rcases hp with hp | ⟨-, hp⟩ <;> rcases hm with hm | ⟨-, hm⟩
  · rw [hp.1, hp.2, hm.1, hm.2] at hfar; exact absurd hfar (lt_irrefl _)
  · rw [hp.1, hp.2, hm.1, hm.2, hT _ k1.ne', hT _ k2.ne, abs_of_pos k1, abs_of_neg k2]
    field_simp
    ring
  · rw [hp.1, hp.2, hm.1, hm.2, hd, hd] at hfar
    exfalso
    have := lt_of_mul_lt_mul_right hfar (by positivity)
    have hq : 0 < Rein / β := by positivity
    nlinarith
  · rw [hp.1, hp.2, hm.1, hm.2] at hfar; exact absurd hfar (lt_irrefl _)

/-- The inner image of a point mass arrives later than the outer one, by the distance factor times
`β w / 2 + Rein² log ((w + β) / (w - β))` with `w = √(β² + 4 Rein²)`. -/
theorem C79_point_delay (e : MPEnv ℝ) (zs z x0 y0 Rein bx bys : ℝ) (hR : 0 < Rein)
    (hb : (bx, bys) ≠ (x0, y0)) (p m : ℝ × ℝ)
    (hp : raytraceOpt (pointDeflectionOpt x0 y0 Rein 0) p.1 p.2 = some (bx, bys))
    (hm : raytraceOpt (pointDeflectionOpt x0 y0 Rein 0) m.1 m.2 = some (bx, bys))
    (hfar : (m.1 - x0) ^ 2 + (m.2 - y0) ^ 2 < (p.1 - x0) ^ 2 + (p.2 - y0) ^ 2) :
    let F := (1 + z) / e.cMpcS * (e.angDist z * e.angDist zs / e.angDist12 z zs)
      * e.arcsecToRad ^ 2 / e.daysToSeconds
    let β := √((bx - x0) ^ 2 + (bys - y0) ^ 2)
    let w := √(β ^ 2 + 4 * Rein ^ 2)
    (pointThin z x0 y0 Rein).timeDelay e zs true true m.1 m.2
        - (pointThin z x0 y0 Rein).timeDelay e zs true true p.1 p.2 =
      F * (β * w / 2 + Rein ^ 2 * log ((w + β) / (w - β))) := by
  intro F β w
  have hb' := sub_ne_zero_pair hb
  have hβ : 0 < β := radius_pos hb'
  have hw2 : w ^ 2 = β ^ 2 + 4 * Rein ^ 2 := sq_sqrt (by positivity)
  have hw : 0 < w := sqrt_pos.2 (by positivity)
  have hwβ : β < w := lt_sqrt_of_sq_lt (by
    have : 0 < Rein ^ 2 := by positivity
    linarith)
  have hp := (C78_point x0 y0 Rein bx bys p.1 p.2 hR hb).1 hp
  have hm := (C78_point x0 y0 Rein bx bys m.1 m.2 hR hb).1 hm
  change _ = (x0 + (1 + w / β) / 2 * (bx - x0), _) ∨
    _ = (x0 + (1 - w / β) / 2 * (bx - x0), _) at hp hm
  have hT : ∀ k, k ≠ 0 → (pointThin z x0 y0 Rein).timeDelay e zs true true (x0 + k * (bx - x0))
      (y0 + k * (bys - y0)) = F * (Rein ^ 4 / (|k| * β) ^ 2 / 2 - Rein ^ 2 * log (|k| * β)) := by
    intro k hk
    have h0 := radius_pos (sub_ne_zero_pair (line_ne hb hk))
    have hv := (C52_value e zs (pointThin z x0 y0 Rein) (x0 + k * (bx - x0)) (y0 + k * (bys - y0))).1
    rw [hv]
    have hsq := radius_sq (x0 + k * (bx - x0) - x0) (y0 + k * (bys - y0) - y0)
    have hl := line_dist x0 y0 bx bys k
    change _ = |k| * β at hl
    rw [← hl]
    simp only [pointThin, ThinLensFn.raytrace, pointDeflection, pointPotential, translateRotate, add_zero]
    generalize √((x0 + k * (bx - x0) - x0) ^ 2 + (y0 + k * (bys - y0) - y0) ^ 2) = r at *
    congr 2
    rw [sub_sub_cancel, sub_sub_cancel, div_pow, div_pow, ← add_div, mul_pow, mul_pow, ← add_mul, ← hsq]
    field_simp
  have k1 : 0 < (1 + w / β) / 2 := by positivity
  have k2 : (1 - w / β) / 2 < 0 := by
    have : 1 < w / β := by rw [lt_div_iff₀ hβ]; linarith
    linarith
  have e1 : (1 + w / β) / 2 * β = (w + β) / 2 := by field_simp; ring
  have e2 : -((1 - w / β) / 2) * β = (w - β) / 2 := by field_simp; ring
  obtain ⟨p1, p2⟩ := p
  obtain ⟨m1, m2⟩ := m
  simp only [Prod.mk.injEq] at hp hm hfar ⊢
  have hd : ∀ k : ℝ, (x0 + k * (bx - x0) - x0) ^ 2 + (y0 + k * (bys - y0) - y0) ^ 2 = k ^ 2 * β ^ 2 := by
    intro k; rw [radius_sq]; ring
  rcases hp with hp | hp <;> rcases hm with hm | hm
  · rw [hp.1, hp.2, hm.1, hm.2] at hfar; exact absurd hfar (lt_irrefl _)
  · rw [hp.1, hp.2, hm.1, hm.2, hT _ k1.ne', hT _ k2.ne, abs_of_pos k1, abs_of_neg k2, e1, e2]
    have h0 : 0 < w - β := by linarith
    have h1 : 0 < w + β := by linarith
    rw [log_div h1.ne' h0.ne', log_div h1.ne' two_ne_zero, log_div h0.ne' two_ne_zero]
    have h4 : Rein ^ 4 = ((w - β) * (w + β) / 4) ^ 2 := by
      rw [show Rein ^ 4 = (Rein ^ 2) ^ 2 by ring]; congr 1; linarith
    rw [h4]
    field_simp
    ring
  · rw [hp.1, hp.2, hm.1, hm.2, hd, hd] at hfar
    exfalso
    have := lt_of_mul_lt_mul_right hfar (by positivity)
    have hq : 0 < w / β := by positivity
    nlinarith
  · rw [hp.1, hp.2, hm.1, hm.2] at hfar; exact absurd hfar (lt_irrefl _)

/-! ### Examples -/

/-- A source at distance 5 behind an SIS of Einstein radius 10: images at distances 15 and 5. -/
example : raytraceOpt (sisDeflectionOpt 1 2 10 0) 10 14 = some (4, 6) ∧
    raytraceOpt (sisDeflectionOpt 1 2 10 0) (-2) (-2) = some (4, 6) ∧
    raytraceOpt (sisDeflectionOpt 1 2 10 0) 1 2 = none := by
  have hs : √((4 - 1 : ℝ) ^ 2 + (6 - 2) ^ 2) = 5 := by
    rw [show (4 - 1 : ℝ) ^ 2 + (6 - 2) ^ 2 = 5 ^ 2 by norm_num]; exact sqrt_sq (by norm_num)
  refine ⟨(C78_sis 1 2 10 4 6 10 14 (by norm_num) (by norm_num)).2 (Or.inl ?_),
    (C78_sis 1 2 10 4 6 (-2) (-2) (by norm_num) (by norm_num)).2 (Or.inr ?_), ?_⟩
  · rw [hs]; norm_num
  · rw [hs]; norm_num
  · simp [raytraceOpt, sisDeflectionOpt, translateRotate, sqrtOpt, divOpt]

/-- A source at distance 3 behind a point mass of Einstein radius 2: images at 4 and -1, with total
magnification 17/15. -/
example : raytraceOpt (pointDeflectionOpt 0 0 2 0) 4 0 = some (3, 0) ∧
    raytraceOpt (pointDeflectionOpt 0 0 2 0) (-1) 0 = some (3, 0) ∧
    ∀ P M : M22 ℝ,
      HasJac (fun x y => (x - (pointDeflection 0 0 2 0 x y).1, y - (pointDeflection 0 0 2 0 x y).2))
        P.a00 P.a01 P.a10 P.a11 4 0 →
      HasJac (fun x y => (x - (pointDeflection 0 0 2 0 x y).1, y - (pointDeflection 0 0 2 0 x y).2))
        M.a00 M.a01 M.a10 M.a11 (-1) 0 →
      pixelMagnification P + pixelMagnification M = 17 / 15 := by
  have hs : √((3 - 0 : ℝ) ^ 2 + (0 - 0) ^ 2) = 3 := by
    rw [show (3 - 0 : ℝ) ^ 2 + (0 - 0) ^ 2 = 3 ^ 2 by norm_num]; exact sqrt_sq (by norm_num)
  have hw : √((3 : ℝ) ^ 2 + 4 * 2 ^ 2) = 5 := by
    rw [show (3 : ℝ) ^ 2 + 4 * 2 ^ 2 = 5 ^ 2 by norm_num]; exact sqrt_sq (by norm_num)
  have h1 : raytraceOpt (pointDeflectionOpt 0 0 2 0) 4 0 = some (3, 0) := by
    refine (C78_point 0 0 2 3 0 4 0 (by norm_num) (by norm_num)).2 (Or.inl ?_)
    rw [hs, hw]; norm_num
  have h2 : raytraceOpt (pointDeflectionOpt 0 0 2 0) (-1) 0 = some (3, 0) := by
    refine (C78_point 0 0 2 3 0 (-1) 0 (by norm_num) (by norm_num)).2 (Or.inr ?_)
    rw [hs, hw]; norm_num
  refine ⟨h1, h2, fun P M hP hM => ?_⟩
  have := (C79_point 0 0 2 3 0 (by norm_num) (by norm_num) (4, 0) (-1, 0) (by norm_num) h1 h2 hP hM).1
  simp only [hs, hw] at this
  rw [this]; norm_num

/-- Those Jacobians exist. -/
example : ∃ P : M22 ℝ,
    HasJac (fun x y => (x - (pointDeflection 0 0 2 0 x y).1, y - (pointDeflection 0 0 2 0 x y).2))
      P.a00 P.a01 P.a10 P.a11 4 0 := by
  obtain ⟨-, -, a, b, c, hJ, -⟩ := C24_point 0 0 2 4 0 (by norm_num)
  have h1 := (HasGrad.fst 4 0).sub hJ.1
  have h2 := (HasGrad.snd 4 0).sub hJ.2
  exact ⟨⟨_, _, _, _⟩, h1, h2⟩

/-- Sheet of convergence 1/2 with shear 1/4: the source (3, 1) is seen at (12, 4/3). -/
example : let x : ℝ := 12
    let y : ℝ := 4 / 3
    (x - (sheetDeflection 0 0 (1 / 2) x y).1 - (shearDeflection 0 0 (1 / 4) 0 x y).1,
      y - (sheetDeflection 0 0 (1 / 2) x y).2 - (shearDeflection 0 0 (1 / 4) 0 x y).2) = (3, 1) := by
  intro x y
  exact (C78_sheet_shear 0 0 (1 / 2) (1 / 4) 0 3 1 12 (4 / 3) (by norm_num)).2 (by norm_num)

/-- The point (4, 6) is on the Einstein ring of radius 5 about (1, 2) of a lens of slope 3/2. -/
example : ∃ a, eplDeflection 1 2 1 0 5 (3 / 2) 3 none 4 6 = .ok a ∧ ((4 : ℝ) - a.1, (6 : ℝ) - a.2) = (1, 2) :=
  (C78_epl_ring 1 2 0 5 (3 / 2) 3 none (by norm_num) (Or.inl rfl) (by norm_num) (by norm_num) 4 6).2
    (Or.inr (by norm_num))

/-- Images of the first example: the factor times `2 * 10 * 5`. -/
example (e : MPEnv ℝ) :
    (sisThin 1 1 2 10).timeDelay e 2 true true (-2) (-2) - (sisThin 1 1 2 10).timeDelay e 2 true true 10 14 =
      (1 + 1) / e.cMpcS * (e.angDist 1 * e.angDist 2 / e.angDist12 1 2)
        * e.arcsecToRad ^ 2 / e.daysToSeconds * 100 := by
  have hs : √((4 - 1 : ℝ) ^ 2 + (6 - 2) ^ 2) = 5 := by
    rw [show (4 - 1 : ℝ) ^ 2 + (6 - 2) ^ 2 = 5 ^ 2 by norm_num]; exact sqrt_sq (by norm_num)
  have h1 : raytraceOpt (sisDeflectionOpt 1 2 10 0) 10 14 = some (4, 6) :=
    (C78_sis 1 2 10 4 6 10 14 (by norm_num) (by norm_num)).2 (Or.inl (by rw [hs]; norm_num))
  have h2 : raytraceOpt (sisDeflectionOpt 1 2 10 0) (-2) (-2) = some (4, 6) :=
    (C78_sis 1 2 10 4 6 (-2) (-2) (by norm_num) (by norm_num)).2 (Or.inr (by rw [hs]; norm_num))
  have := C79_sis_delay e 2 1 1 2 10 4 6 (by norm_num) (by rw [hs]; norm_num) (10, 14) (-2, -2) h1 h2
    (by norm_num)
  simp only [hs] at this
  rw [this]; norm_num

end Caustics

import Verif.Props.LensHalo
import Verif.Model.EPL
import Verif.Lemmas.Polar

/-!
Translation and rotation covariance of the lens models, and the enclosed-mass lens.
-/

open Real

namespace Caustics

/-- Rotation of a vector by the angle `th`. -/
noncomputable def rot (th : ℝ) (v : ℝ × ℝ) : ℝ × ℝ :=
  (v.1 * cos th - v.2 * sin th, v.1 * sin th + v.2 * cos th)

/-- Rotation of a position about `(x0, y0)`. -/
noncomputable def rotAbout (x0 y0 th x y : ℝ) : ℝ × ℝ :=
  (x0 + (rot th (x - x0, y - y0)).1, y0 + (rot th (x - x0, y - y0)).2)

theorem translateRotate_shift (x y x0 y0 a b : ℝ) (phi : Option ℝ) :
    translateRotate (x + a) (y + b) (x0 + a) (y0 + b) phi = translateRotate x y x0 y0 phi := by
  cases phi <;> simp [translateRotate]

theorem translateRotate_rot (x y x0 y0 th phi : ℝ) :
    translateRotate (rotAbout x0 y0 th x y).1 (rotAbout x0 y0 th x y).2 x0 y0 (some (phi + th))
      = translateRotate x y x0 y0 (some phi) := by
  have cs := sin_sq_add_cos_sq th
  simp only [translateRotate, rotAbout, rot, cos_add, sin_add]
  ext
  · simp only
    linear_combination ((x - x0) * cos phi + (y - y0) * sin phi) * cs
  · simp only
    linear_combination ((y - y0) * cos phi - (x - x0) * sin phi) * cs

theorem translateRotate_rot_none (x y x0 y0 th : ℝ) :
    translateRotate (rotAbout x0 y0 th x y).1 (rotAbout x0 y0 th x y).2 x0 y0 none
      = rot th (translateRotate x y x0 y0 none) := by
  simp [translateRotate, rotAbout, rot]

theorem derotate_add (a b phi th : ℝ) :
    derotate a b (some (phi + th)) = rot th (derotate a b (some phi)) := by
  simp only [derotate, rot, cos_add, sin_add]
  ext <;> simp only <;> ring

theorem derotate_neg_add (v : ℝ × ℝ) (phi th : ℝ) :
    derotate (rot th v).1 (rot th v).2 (some (-(phi + th))) = derotate v.1 v.2 (some (-phi)) := by
  have cs := sin_sq_add_cos_sq th
  simp only [derotate, rot, cos_neg, sin_neg, cos_add, sin_add]
  ext
  · simp only
    linear_combination (v.1 * cos phi + v.2 * sin phi) * cs
  · simp only
    linear_combination (v.2 * cos phi - v.1 * sin phi) * cs

theorem rot_sq (th : ℝ) (v : ℝ × ℝ) : (rot th v).1 ^ 2 + (rot th v).2 ^ 2 = v.1 ^ 2 + v.2 ^ 2 := by
  have cs := sin_sq_add_cos_sq th
  simp only [rot]
  linear_combination (v.1 ^ 2 + v.2 ^ 2) * cs

theorem rot_scale (th c : ℝ) (v : ℝ × ℝ) : rot th (c * v.1, c * v.2) = (c * (rot th v).1, c * (rot th v).2) := by
  simp only [rot]
  ext <;> simp only <;> ring

/-! ### Translation -/

/-- Moving the centre of a lens by `(a, b)` moves its fields by `(a, b)`. -/
theorem C51_translation_sis (x0 y0 Rein s x y a b : ℝ) :
    sisDeflection (x0 + a) (y0 + b) Rein s (x + a) (y + b) = sisDeflection x0 y0 Rein s x y ∧
    sisPotential (x0 + a) (y0 + b) Rein s (x + a) (y + b) = sisPotential x0 y0 Rein s x y ∧
    sisConvergence (x0 + a) (y0 + b) Rein s (x + a) (y + b) = sisConvergence x0 y0 Rein s x y := by
  simp only [sisDeflection, sisPotential, sisConvergence, translateRotate_shift, and_self]

theorem C51_translation_point (x0 y0 Rein s x y a b : ℝ) :
    pointDeflection (x0 + a) (y0 + b) Rein s (x + a) (y + b) = pointDeflection x0 y0 Rein s x y ∧
    pointPotential (x0 + a) (y0 + b) Rein s (x + a) (y + b) = pointPotential x0 y0 Rein s x y ∧
    pointConvergence (x0 + a) (y0 + b) (x + a) (y + b) = pointConvergence x0 y0 x y := by
  simp only [pointDeflection, pointPotential, pointConvergence, translateRotate_shift, and_self]

theorem C51_translation_sheet (x0 y0 kappa x y a b : ℝ) :
    sheetDeflection (x0 + a) (y0 + b) kappa (x + a) (y + b) = sheetDeflection x0 y0 kappa x y ∧
    sheetPotential (x0 + a) (y0 + b) kappa (x + a) (y + b) = sheetPotential x0 y0 kappa x y := by
  simp only [sheetDeflection, sheetPotential, translateRotate_shift, and_self]

theorem C51_translation_shear (x0 y0 g1 g2 x y a b : ℝ) :
    shearDeflection (x0 + a) (y0 + b) g1 g2 (x + a) (y + b) = shearDeflection x0 y0 g1 g2 x y ∧
    shearPotential (x0 + a) (y0 + b) g1 g2 (x + a) (y + b) = shearPotential x0 y0 g1 g2 x y := by
  simp only [shearDeflection, shearPotential, translateRotate_shift, and_self]

theorem C51_translation_sie (x0 y0 q phi Rein s x y a b : ℝ) :
    sieDeflection (x0 + a) (y0 + b) q phi Rein s (x + a) (y + b) = sieDeflection x0 y0 q phi Rein s x y ∧
    siePotential (x0 + a) (y0 + b) q phi Rein s (x + a) (y + b) = siePotential x0 y0 q phi Rein s x y ∧
    sieConvergence (x0 + a) (y0 + b) q phi Rein s (x + a) (y + b) = sieConvergence x0 y0 q phi Rein s x y := by
  simp only [siePotential, sieDeflection, sieConvergence, translateRotate_shift, and_self]

theorem C51_translation_epl (x0 y0 q phi Rein t s x y a b : ℝ) (n : ℕ) (cs : Option ℕ) :
    eplDeflection (x0 + a) (y0 + b) q phi Rein t n cs (x + a) (y + b) = eplDeflection x0 y0 q phi Rein t n cs x y ∧
    eplPotential (x0 + a) (y0 + b) q phi Rein t n cs (x + a) (y + b) = eplPotential x0 y0 q phi Rein t n cs x y ∧
    eplConvergence (x0 + a) (y0 + b) q phi Rein t s (x + a) (y + b) = eplConvergence x0 y0 q phi Rein t s x y := by
  simp only [eplPotential, eplDeflection, eplConvergence, translateRotate_shift, and_self]

theorem C51_translation_enclosed (Gc2 x0 y0 q phi s csd x y a b : ℝ) (M : ℝ → ℝ) :
    enclosedDeflection Gc2 (x0 + a) (y0 + b) q phi M s (x + a) (y + b) = enclosedDeflection Gc2 x0 y0 q phi M s x y ∧
    enclosedConvergence (x0 + a) (y0 + b) q phi M csd s (x + a) (y + b) = enclosedConvergence x0 y0 q phi M csd s x y := by
  simp only [enclosedDeflection, enclosedConvergence, translateRotate_shift, and_self]

theorem C51_translation_nfw (L : NFW) (x y a b : ℝ) :
    let L' := { L with x0 := L.x0 + a, y0 := L.y0 + b }
    L'.deflection (x + a) (y + b) = L.deflection x y ∧ L'.potential (x + a) (y + b) = L.potential x y ∧
      L'.convergence (x + a) (y + b) = L.convergence x y := by
  simp only [NFW.deflection, NFW.physicalDeflection, NFW.potential, NFW.convergence, NFW.rs,
    translateRotate_shift, and_self]

theorem C51_translation_tnfw (L : TNFW) (x y a b : ℝ) :
    let L' := { L with x0 := L.x0 + a, y0 := L.y0 + b }
    L'.deflection (x + a) (y + b) = L.deflection x y ∧ L'.potential (x + a) (y + b) = L.potential x y ∧
      L'.convergence (x + a) (y + b) = L.convergence x y := by
  simp only [TNFW.deflection, TNFW.physicalDeflection, TNFW.potential, TNFW.convergence,
    translateRotate_shift, and_self]

theorem C51_translation_pseudo_jaffe (L : PJaffe) (x y a b : ℝ) :
    let L' := { L with x0 := L.x0 + a, y0 := L.y0 + b }
    L'.deflection (x + a) (y + b) = L.deflection x y ∧ L'.potential (x + a) (y + b) = L.potential x y ∧
      L'.convergence (x + a) (y + b) = L.convergence x y := by
  simp only [PJaffe.deflection, PJaffe.potential, PJaffe.convergence, translateRotate_shift, and_self]

theorem C51_translation_multipole {n : ℕ} (x0 y0 x y a b : ℝ) (m am phim : Fin n → ℝ) :
    multipoleDeflection (x0 + a) (y0 + b) m am phim (x + a) (y + b) = multipoleDeflection x0 y0 m am phim x y ∧
    multipolePotential (x0 + a) (y0 + b) m am phim (x + a) (y + b) = multipolePotential x0 y0 m am phim x y ∧
    multipoleConvergence (x0 + a) (y0 + b) m am phim (x + a) (y + b) = multipoleConvergence x0 y0 m am phim x y := by
  simp only [multipoleDeflection, multipolePotential, multipoleConvergence, translateRotate_shift, and_self]

/-! ### Rotation -/

/-- Turning an SIE by `th` turns its fields by `th`. -/
theorem C51_rotation_sie (x0 y0 q phi Rein s x y th : ℝ) :
    let p := rotAbout x0 y0 th x y
    sieDeflection x0 y0 q (phi + th) Rein s p.1 p.2 = rot th (sieDeflection x0 y0 q phi Rein s x y) ∧
    siePotential x0 y0 q (phi + th) Rein s p.1 p.2 = siePotential x0 y0 q phi Rein s x y ∧
    sieConvergence x0 y0 q (phi + th) Rein s p.1 p.2 = sieConvergence x0 y0 q phi Rein s x y := by
  intro p
  have h1 : sieDeflection x0 y0 q (phi + th) Rein s p.1 p.2 = rot th (sieDeflection x0 y0 q phi Rein s x y) := by
    simp only [sieDeflection, p, translateRotate_rot, derotate_add]
  refine ⟨h1, ?_, ?_⟩
  · simp only [siePotential, h1, derotate_neg_add, p, translateRotate_rot]
  · simp only [sieConvergence, p, translateRotate_rot]

theorem C51_rotation_epl (x0 y0 q phi Rein t s x y th : ℝ) (n : ℕ) (cs : Option ℕ) :
    let p := rotAbout x0 y0 th x y
    eplDeflection x0 y0 q (phi + th) Rein t n cs p.1 p.2
      = (eplDeflection x0 y0 q phi Rein t n cs x y).map (rot th) ∧
    eplPotential x0 y0 q (phi + th) Rein t n cs p.1 p.2 = eplPotential x0 y0 q phi Rein t n cs x y ∧
    eplConvergence x0 y0 q (phi + th) Rein t s p.1 p.2 = eplConvergence x0 y0 q phi Rein t s x y := by
  intro p
  have h1 : eplDeflection x0 y0 q (phi + th) Rein t n cs p.1 p.2
      = (eplDeflection x0 y0 q phi Rein t n cs x y).map (rot th) := by
    simp only [eplDeflection, p, translateRotate_rot, derotate_add]
    cases eplFrame q Rein t n cs (translateRotate x y x0 y0 (some phi)).1
      (translateRotate x y x0 y0 (some phi)).2 <;> rfl
  refine ⟨h1, ?_, ?_⟩
  · simp only [eplPotential, h1, p, translateRotate_rot]
    cases eplDeflection x0 y0 q phi Rein t n cs x y with
    | error e => rfl
    | ok v =>
      change Except.ok _ = Except.ok _
      simp only [derotate_neg_add]
  · simp only [eplConvergence, p, translateRotate_rot]

theorem C51_rotation_enclosed (Gc2 x0 y0 q phi s csd x y th : ℝ) (M : ℝ → ℝ) :
    let p := rotAbout x0 y0 th x y
    enclosedDeflection Gc2 x0 y0 q (phi + th) M s p.1 p.2
      = rot th (enclosedDeflection Gc2 x0 y0 q phi M s x y) ∧
    enclosedConvergence x0 y0 q (phi + th) M csd s p.1 p.2 = enclosedConvergence x0 y0 q phi M csd s x y := by
  intro p
  simp only [enclosedDeflection, enclosedConvergence, p, translateRotate_rot, derotate_add, and_self]

/-- Circular lenses: turning the position about the centre turns the deflection. -/
theorem C51_rotation_sis (x0 y0 Rein s x y th : ℝ) :
    let p := rotAbout x0 y0 th x y
    sisDeflection x0 y0 Rein s p.1 p.2 = rot th (sisDeflection x0 y0 Rein s x y) ∧
    sisPotential x0 y0 Rein s p.1 p.2 = sisPotential x0 y0 Rein s x y ∧
    sisConvergence x0 y0 Rein s p.1 p.2 = sisConvergence x0 y0 Rein s x y := by
  intro p
  simp only [sisDeflection, sisPotential, sisConvergence, p, translateRotate_rot_none, rot_sq, and_self,
    and_true]
  simp only [rot]
  ext <;> simp only <;> ring

theorem C51_rotation_point (x0 y0 Rein s x y th : ℝ) :
    let p := rotAbout x0 y0 th x y
    pointDeflection x0 y0 Rein s p.1 p.2 = rot th (pointDeflection x0 y0 Rein s x y) ∧
    pointPotential x0 y0 Rein s p.1 p.2 = pointPotential x0 y0 Rein s x y := by
  intro p
  simp only [pointDeflection, pointPotential, p, translateRotate_rot_none, rot_sq, and_true]
  simp only [rot]
  ext <;> simp only <;> ring

theorem C51_rotation_sheet (x0 y0 kappa x y th : ℝ) :
    let p := rotAbout x0 y0 th x y
    sheetDeflection x0 y0 kappa p.1 p.2 = rot th (sheetDeflection x0 y0 kappa x y) ∧
    sheetPotential x0 y0 kappa p.1 p.2 = sheetPotential x0 y0 kappa x y := by
  intro p
  simp only [sheetDeflection, sheetPotential, p, translateRotate_rot_none, rot_sq, and_true]
  simp only [rot]
  ext <;> simp only <;> ring

theorem C51_rotation_nfw (L : NFW) (x y th : ℝ) :
    let p := rotAbout L.x0 L.y0 th x y
    L.deflection p.1 p.2 = rot th (L.deflection x y) ∧ L.potential p.1 p.2 = L.potential x y ∧
      L.convergence p.1 p.2 = L.convergence x y := by
  intro p
  simp only [NFW.deflection, NFW.physicalDeflection, NFW.potential, NFW.convergence, p,
    translateRotate_rot_none, rot_sq, and_true]
  simp only [rot]
  ext <;> simp only <;> ring

theorem C51_rotation_pseudo_jaffe (L : PJaffe) (x y th : ℝ) :
    let p := rotAbout L.x0 L.y0 th x y
    L.deflection p.1 p.2 = rot th (L.deflection x y) ∧ L.potential p.1 p.2 = L.potential x y ∧
      L.convergence p.1 p.2 = L.convergence x y := by
  intro p
  simp only [PJaffe.deflection, PJaffe.potential, PJaffe.convergence, p,
    translateRotate_rot_none, rot_sq, and_true]
  simp only [rot]
  ext <;> simp only <;> ring

/-- The truncated NFW writes the direction with `atan2`. -/
theorem C51_rotation_tnfw (L : TNFW) (x y th : ℝ) (hxy : (x, y) ≠ (L.x0, L.y0)) :
    let p := rotAbout L.x0 L.y0 th x y
    L.deflection p.1 p.2 = rot th (L.deflection x y) ∧ L.potential p.1 p.2 = L.potential x y ∧
      L.convergence p.1 p.2 = L.convergence x y := by
  intro p
  have h' := sub_ne_zero_or hxy
  have hr := radius_pos h'
  have hv : 0 < (x - L.x0) ^ 2 + (y - L.y0) ^ 2 := sqrt_pos.mp hr
  simp only [TNFW.deflection, TNFW.physicalDeflection, TNFW.potential, TNFW.convergence, p,
    translateRotate_rot_none, rot_sq, and_true]
  have hne : (rot th (translateRotate x y L.x0 L.y0 none)).1 ≠ 0
      ∨ (rot th (translateRotate x y L.x0 L.y0 none)).2 ≠ 0 := by
    by_contra hc
    push Not at hc
    have := rot_sq th (translateRotate x y L.x0 L.y0 none)
    rw [hc.1, hc.2] at this
    simp only [translateRotate] at this
    linarith
  rw [cos_arctan2 hne, sin_arctan2 hne, rot_sq]
  have h2 : (translateRotate x y L.x0 L.y0 none).1 ≠ 0 ∨ (translateRotate x y L.x0 L.y0 none).2 ≠ 0 := h'
  rw [cos_arctan2 h2, sin_arctan2 h2]
  simp only [rot]
  ext <;> simp only <;> ring

/-! ### Enclosed mass -/

/-- The full claim: for circular lenses, up to one unit factor, half the divergence of the deflection is
the convergence. -/
def C28_statement : Prop :=
  ∀ Gc2 csd : ℝ, 0 < Gc2 → 0 < csd → ∃ C, C ≠ 0 ∧ ∀ M : ℝ → ℝ, Differentiable ℝ M →
    ∀ x0 y0 phi x y, (x, y) ≠ (x0, y0) →
      HasKappa (enclosedDeflection Gc2 x0 y0 1 phi M 0) (C * enclosedConvergence x0 y0 1 phi M csd 0 x y) x y

/-- The circular deflection as a function of the radius. -/
theorem enclosedDeflection_circular (Gc2 x0 y0 phi : ℝ) (M : ℝ → ℝ) (x y : ℝ) :
    enclosedDeflection Gc2 x0 y0 1 phi M 0 x y =
      (4 * Gc2 * M (√((x - x0) ^ 2 + (y - y0) ^ 2)) / √((x - x0) ^ 2 + (y - y0) ^ 2) ^ 2 * (x - x0)
          / √((x - x0) ^ 2 + (y - y0) ^ 2),
       4 * Gc2 * M (√((x - x0) ^ 2 + (y - y0) ^ 2)) / √((x - x0) ^ 2 + (y - y0) ^ 2) ^ 2 * (y - y0)
          / √((x - x0) ^ 2 + (y - y0) ^ 2)) := by
  have cs := sin_sq_add_cos_sq phi
  have er : ((x - x0) * cos phi + (y - y0) * sin phi) ^ 2 / 1
      + 1 * ((y - y0) * cos phi - (x - x0) * sin phi) ^ 2 = (x - x0) ^ 2 + (y - y0) ^ 2 := by
    linear_combination ((x - x0) ^ 2 + (y - y0) ^ 2) * cs
  simp only [enclosedDeflection, translateRotate, er, derotate, add_zero]
  generalize √((x - x0) ^ 2 + (y - y0) ^ 2) = R
  ext
  · simp only
    linear_combination (4 * Gc2 * M R / R ^ 2 * (x - x0) / R) * cs
  · simp only
    linear_combination (4 * Gc2 * M R / R ^ 2 * (y - y0) / R) * cs

theorem enclosedConvergence_circular (x0 y0 phi : ℝ) (M : ℝ → ℝ) (csd x y : ℝ) :
    enclosedConvergence x0 y0 1 phi M csd 0 x y =
      0.5 * deriv M (√((x - x0) ^ 2 + (y - y0) ^ 2)) / (√((x - x0) ^ 2 + (y - y0) ^ 2) * π * csd) := by
  have cs := sin_sq_add_cos_sq phi
  have er : ((x - x0) * cos phi + (y - y0) * sin phi) ^ 2 / 1
      + 1 * ((y - y0) * cos phi - (x - x0) * sin phi) ^ 2 = (x - x0) ^ 2 + (y - y0) ^ 2 := by
    linear_combination ((x - x0) ^ 2 + (y - y0) ^ 2) * cs
  simp only [enclosedConvergence, translateRotate, er, add_zero]

/-- What the half divergence of the returned deflection really is: the deflection falls with one power
of the radius too many. -/
theorem C28_actual_divergence (Gc2 x0 y0 phi : ℝ) (M : ℝ → ℝ) (hM : Differentiable ℝ M) (x y : ℝ)
    (hxy : (x, y) ≠ (x0, y0)) :
    let R := √((x - x0) ^ 2 + (y - y0) ^ 2)
    HasKappa (enclosedDeflection Gc2 x0 y0 1 phi M 0) (2 * Gc2 * (deriv M R / R ^ 2 - M R / R ^ 3)) x y := by
  intro R
  have h' := sub_ne_zero_or hxy
  have hR : 0 < R := radius_pos h'
  have hd : HasDerivAt (fun r => 4 * Gc2 * M r / r ^ 2)
      (4 * Gc2 * (deriv M R / R ^ 2 - 2 * M R / R ^ 3)) R := by
    have h1 := ((hM R).hasDerivAt.const_mul (4 * Gc2)).div ((hasDerivAt_id R).pow 2) (by
      simp [hR.ne'])
    refine h1.congr_deriv ?_
    simp only [Nat.cast_ofNat, Nat.add_one_sub_one, pow_one, id]
    simp
    field_simp
  have e : enclosedDeflection Gc2 x0 y0 1 phi M 0 = fun x y => _ :=
    funext fun x => funext fun y => enclosedDeflection_circular Gc2 x0 y0 phi M x y
  rw [e]
  refine (hasKappa_shift (hasKappa_radial h' hd)).congr ?_
  change (_ + 4 * Gc2 * M R / R ^ 2 / R) / 2 = _
  field_simp
  ring

/-- For an isothermal profile (mass proportional to radius) the deflection has zero divergence while
the convergence is positive. -/
theorem C28_fails : ¬ C28_statement := by
  intro h
  obtain ⟨C, hC, h⟩ := h 1 1 one_pos one_pos
  have h1 := h (fun r => r) differentiable_id 0 0 0 3 4 (by norm_num)
  have h2 := C28_actual_divergence 1 0 0 0 (fun r => r) differentiable_id 3 4 (by norm_num)
  have hu := h1.unique h2
  rw [enclosedConvergence_circular] at hu
  have e : √((3 - 0 : ℝ) ^ 2 + (4 - 0) ^ 2) = 5 := by
    rw [show (3 - 0 : ℝ) ^ 2 + (4 - 0) ^ 2 = 5 ^ 2 by norm_num]; exact sqrt_sq (by norm_num)
  have hpi := pi_pos
  rw [e] at hu
  simp only [deriv_id''] at hu
  have : C * (0.5 * 1 / (5 * π * 1)) = 0 := by rw [hu]; norm_num
  rcases mul_eq_zero.mp this with h | h
  · exact hC h
  · have : 0 < 0.5 * 1 / (5 * π * 1) := by positivity
    exact this.ne' h

/-- Multiplied by the radius, the returned deflection does have the returned convergence as half
divergence, with the unit factor `4 π G/c² Σ_cr`: the two disagree by exactly one power of the
radius. -/
theorem C28_partial (Gc2 csd x0 y0 phi : ℝ) (hcsd : 0 < csd) (M : ℝ → ℝ) (hM : Differentiable ℝ M)
    (x y : ℝ) (hxy : (x, y) ≠ (x0, y0)) :
    HasKappa (fun x y => (√((x - x0) ^ 2 + (y - y0) ^ 2) * (enclosedDeflection Gc2 x0 y0 1 phi M 0 x y).1,
        √((x - x0) ^ 2 + (y - y0) ^ 2) * (enclosedDeflection Gc2 x0 y0 1 phi M 0 x y).2))
      (4 * π * Gc2 * csd * enclosedConvergence x0 y0 1 phi M csd 0 x y) x y := by
  have h' := sub_ne_zero_or hxy
  have hR := radius_pos h'
  have hpi := pi_pos
  have hd : HasDerivAt (fun r => 4 * Gc2 * M r / r)
      (4 * Gc2 * (deriv M (√((x - x0) ^ 2 + (y - y0) ^ 2)) / √((x - x0) ^ 2 + (y - y0) ^ 2)
        - M (√((x - x0) ^ 2 + (y - y0) ^ 2)) / √((x - x0) ^ 2 + (y - y0) ^ 2) ^ 2))
      (√((x - x0) ^ 2 + (y - y0) ^ 2)) := by
    have h1 := ((hM (√((x - x0) ^ 2 + (y - y0) ^ 2))).hasDerivAt.const_mul (4 * Gc2)).div
      (hasDerivAt_id _) hR.ne'
    refine h1.congr_deriv ?_
    simp only [id]
    field_simp
  refine ((hasKappa_shift (hasKappa_radial h' hd)).congr_near ?_).congr ?_
  · refine Filter.Eventually.of_forall fun p => ?_
    simp only [enclosedDeflection_circular]
    ext <;> simp only <;> field_simp
  · rw [enclosedConvergence_circular]
    field_simp
    ring

/-! ### Concrete instances -/

/-- A quarter turn about the origin. -/
example : (rotAbout 0 0 (π / 2) 3 4) = (-4, 3) := by
  simp [rotAbout, rot]

example : sieDeflection 0 0 0.5 (0.2 + π / 2) 1 0 (-4) 3
    = rot (π / 2) (sieDeflection 0 0 0.5 0.2 1 0 3 4) := by
  have := (C51_rotation_sie 0 0 0.5 0.2 1 0 3 4 (π / 2)).1
  have e : rotAbout 0 0 (π / 2) 3 4 = (-4, 3) := by simp [rotAbout, rot]
  rw [e] at this
  exact this

example : HasKappa (enclosedDeflection 1 0 0 1 0 (fun r => r ^ 2) 0) (2 * (2 * 5 / 5 ^ 2 - 5 ^ 2 / 5 ^ 3)) 3 4 := by
  have := C28_actual_divergence 1 0 0 0 (fun r => r ^ 2) (by fun_prop) 3 4 (by norm_num)
  have e : √((3 - 0 : ℝ) ^ 2 + (4 - 0) ^ 2) = 5 := by
    rw [show (3 - 0 : ℝ) ^ 2 + (4 - 0) ^ 2 = 5 ^ 2 by norm_num]; exact sqrt_sq (by norm_num)
  simp only [e] at this
  refine this.congr ?_
  norm_num

/-- A truncated NFW and a pseudo-Jaffe lens that satisfy the hypotheses of the gradient theorems. -/
noncomputable def unitTNFW : TNFW :=
  { Gc2 := 1, x0 := 0, y0 := 0, M0 := 1, Rs := 1, tau := 2, d_l := 1, d_s := 1, d_ls := 1,
    sigmacr := 1 / (4 * π * 1 * 1 * 1), s := 0 }

noncomputable def unitPJaffe : PJaffe :=
  { Gc2 := 1, x0 := 0, y0 := 0, mass := 1, Rc := 1, Rs := 2, d_l := 1, d_s := 1, d_ls := 1,
    sigmacr := 1 / (4 * π * 1 * 1 * 1), s := 0 }

example : HasKappa unitTNFW.deflection (unitTNFW.convergence 3 4) 3 4 := by
  refine C24_tnfw unitTNFW ⟨?_, ?_, ?_, ?_, ?_, ?_, rfl⟩ rfl 3 4 (by norm_num [unitTNFW]) ?_
  all_goals try norm_num [unitTNFW]
  have e : √((3 - 0 : ℝ) ^ 2 + (4 - 0) ^ 2) = 5 := by
    rw [show (3 - 0 : ℝ) ^ 2 + (4 - 0) ^ 2 = 5 ^ 2 by norm_num]; exact sqrt_sq (by norm_num)
  simp only [TNFW.radius, e]
  norm_num

example : HasGrad unitPJaffe.potential (unitPJaffe.deflection 3 4).1 (unitPJaffe.deflection 3 4).2 3 4 := by
  refine C23_pseudo_jaffe unitPJaffe ⟨?_, ?_, ?_, ?_, ?_, ?_, ?_, rfl⟩ rfl 3 4 (by norm_num [unitPJaffe])
  all_goals norm_num [unitPJaffe]

end Caustics

import Verif.Props.ParityLenses
import Verif.Props.Softening

/-!
C143, continued: pseudo-Jaffe lenses, the members of a cluster. The class returns no value at the centre, where the
deflection is otherwise smooth.
-/

namespace Caustics

open ComplexConjugate FieldLens Filter Topology PlaneMember MeasureTheory Real

namespace PJaffe

/-- The deflection in units of the offset from the centre. -/
noncomputable def slope (L : PJaffe) (r : ℝ) : ℝ :=
  2 * pjKappa0 L.mass L.Rc L.Rs L.d_l L.sigmacr * L.Rc * L.Rs / (L.Rs - L.Rc) *
    ((L.Rc * (1 + √(1 + (r / L.Rc) ^ 2)))⁻¹ - (L.Rs * (1 + √(1 + (r / L.Rs) ^ 2)))⁻¹)

/-- The deflection, with the missing value at the centre filled in. -/
noncomputable def filled (L : PJaffe) (x y : ℝ) : ℝ × ℝ :=
  (L.slope (√((x - L.x0) ^ 2 + (y - L.y0) ^ 2)) * (x - L.x0), L.slope (√((x - L.x0) ^ 2 + (y - L.y0) ^ 2)) * (y - L.y0))

theorem filled_eq (L : PJaffe) {x y : ℝ} (h : (x, y) ≠ (L.x0, L.y0)) :
    { L with s := 0 }.deflection x y = L.filled x y := by
  have hr := radius_pos (sub_ne_zero_or h)
  simp only [deflection, filled, slope, translateRotate, add_zero]
  set r := √((x - L.x0) ^ 2 + (y - L.y0) ^ 2)
  refine Prod.ext ?_ ?_ <;> simp only <;> field_simp

theorem slope_contDiffAt (L : PJaffe) (hL : L.Ok) (r : ℝ) : ContDiffAt ℝ 1 L.slope r := by
  have key : ∀ R : ℝ, 0 < R → ContDiffAt ℝ 1 (fun r => (R * (1 + √(1 + (r / R) ^ 2)))⁻¹) r := fun R hR => by
    refine ContDiffAt.inv ?_ (by positivity)
    refine contDiffAt_const.mul (contDiffAt_const.add (ContDiffAt.sqrt ?_ (by positivity)))
    exact contDiffAt_const.add ((contDiffAt_id.div_const R).pow 2)
  exact contDiffAt_const.mul ((key _ hL.Rc).sub (key _ hL.Rs))

theorem filled_reach (L : PJaffe) (hL : L.Ok) : Reach L.filled (L.x0, L.y0) 0
    (|2 * pjKappa0 L.mass L.Rc L.Rs L.d_l L.sigmacr * L.Rc * L.Rs / (L.Rs - L.Rc)| * 2) 0 := by
  intro p _
  rw [zero_mul, add_zero]
  set r := √((p.1 - L.x0) ^ 2 + (p.2 - L.y0) ^ 2) with hr
  have hr0 : 0 ≤ r := sqrt_nonneg _
  have hrr : r ^ 2 = (p.1 - L.x0) ^ 2 + (p.2 - L.y0) ^ 2 := sq_sqrt (by positivity)
  have e : len2 (L.filled p.1 p.2) = |L.slope r| * r := by
    rw [len2, filled, ← hr]
    simp only
    rw [mul_pow, mul_pow, ← mul_add, ← hrr, ← mul_pow, sqrt_sq_eq_abs, abs_mul, abs_of_nonneg hr0]
  have key : ∀ R : ℝ, 0 < R → 0 ≤ (R * (1 + √(1 + (r / R) ^ 2)))⁻¹ * r ∧ (R * (1 + √(1 + (r / R) ^ 2)))⁻¹ * r ≤ 1 := by
    intro R hR
    refine ⟨by positivity, ?_⟩
    rw [inv_mul_le_one₀ (by positivity)]
    have h1 : r / R ≤ √(1 + (r / R) ^ 2) := le_sqrt_of_sq_le (by linarith)
    rw [div_le_iff₀ hR] at h1
    nlinarith
  obtain ⟨h1, h2⟩ := key _ hL.Rc
  obtain ⟨h3, h4⟩ := key _ hL.Rs
  rw [e, slope, abs_mul, mul_assoc]
  refine mul_le_mul_of_nonneg_left ?_ (abs_nonneg _)
  rw [← abs_of_nonneg hr0, ← abs_mul, abs_of_nonneg hr0, sub_mul, abs_le]
  constructor <;> linarith

end PJaffe

/-- `PseudoJaffe` as a member of a plane. -/
noncomputable def jaffeMember (z : ℝ) (L : PJaffe) : PlaneMember :=
  .other ⟨z, L.classDeflectionOpt, fun x y => some (L.potential x y)⟩ (toC L.filled) {(L.x0, L.y0)}

theorem C143_pseudo_jaffe (z : ℝ) (L : PJaffe) (hL : L.Ok) : (jaffeMember z L).Valid := by
  have hc : ContDiff ℝ 1 fun p : ℝ × ℝ => L.filled p.1 p.2 :=
    radial_pairs (φ := L.slope) (fun r _ => L.slope_contDiffAt hL r) fun _ _ => rfl
  refine tame_of (fun p hp => ?_) hc.continuous (fun _ _ => hc.contDiffAt) (L.filled_reach hL)
  have hp' : (p.1, p.2) ≠ (L.x0, L.y0) := fun h => hp (Finset.mem_singleton.2 h)
  rw [← L.filled_eq hp']
  exact C77_off_centre.2.2.2.2 L hL hp'

/-- Any number of pseudo-Jaffe lenses, of positive or negative mass, with external shear and convergence: almost every
source has an odd number of images, although the class returns no value at the centres. -/
theorem C143_jaffe_odd (z g1 g2 k : ℝ) (hg : g1 ^ 2 + g2 ^ 2 < (1 - k) ^ 2) (Ls : List PJaffe) (hL : ∀ L ∈ Ls, L.Ok) :
    ∀ᵐ b : ℝ × ℝ, (planeImages z (.field (.shear 0 0 g1 g2) :: .field (.sheet 0 0 k) :: Ls.map (jaffeMember z)) b).ncard % 2 =
      1 := by
  have hk : ((Ls.map (jaffeMember z)).map kap).sum = 0 := List.sum_eq_zero fun x hx => by
    simp only [List.mem_map] at hx
    obtain ⟨_, ⟨L, -, rfl⟩, rfl⟩ := hx
    rfl
  have hgm : ((Ls.map (jaffeMember z)).map gam).sum = 0 := List.sum_eq_zero fun x hx => by
    simp only [List.mem_map] at hx
    obtain ⟨_, ⟨L, -, rfl⟩, rfl⟩ := hx
    rfl
  have h := C143_odd z (.field (.shear 0 0 g1 g2) :: .field (.sheet 0 0 k) :: Ls.map (jaffeMember z)) ?_ ?_ ?_
  · filter_upwards [h] with b hb
    exact hb.2.1
  · rw [List.forall_mem_cons, List.forall_mem_cons]
    refine ⟨trivial, trivial, fun m hm => ?_⟩
    obtain ⟨L, hLm, rfl⟩ := List.mem_map.1 hm
    exact C143_pseudo_jaffe z L (hL L hLm)
  · rw [List.forall_mem_cons, List.forall_mem_cons]
    refine ⟨rfl, rfl, fun m hm => ?_⟩
    obtain ⟨L, -, rfl⟩ := List.mem_map.1 hm
    rfl
  · simp only [List.map_cons, List.sum_cons, hk, hgm, add_zero]
    simpa [kap, gam, kappa, gamma] using hg

/-- Two galaxies of a cluster in an external field. -/
example := C143_jaffe_odd (1 / 2) (1 / 10) 0 (1 / 5) (by norm_num)
  [⟨1, 0, 0, 1, 1, 2, 1, 1, 1, 1 / (4 * π), 0⟩, ⟨1, 3, 0, 2, 1, 2, 1, 1, 1, 1 / (4 * π), 0⟩] (by
    intro L hL
    simp only [List.mem_cons, List.not_mem_nil, or_false] at hL
    rcases hL with rfl | rfl <;> exact ⟨by norm_num, by norm_num, by norm_num, by norm_num, by norm_num, by norm_num,
      by norm_num, by norm_num⟩)

end Caustics

import Verif.Spec.Grad
import Verif.Model.Coord
import Mathlib.Analysis.Calculus.Deriv.Basic
import Mathlib.Analysis.Calculus.FDeriv.Mul
import Mathlib.Analysis.Calculus.FDeriv.Add
import Mathlib.Analysis.Calculus.FDeriv.Comp
import Mathlib.Analysis.Calculus.FDeriv.Prod
import Mathlib.Analysis.Calculus.Deriv.Comp
import Mathlib.Analysis.SpecialFunctions.Sqrt
import Mathlib.Tactic.LinearCombination
import Mathlib.Tactic.FieldSimp

/-! Differentiation rules for functions of two coordinates. -/

namespace Caustics

variable {E : Type*} [NormedAddCommGroup E] [NormedSpace ℝ E]
variable {A : Type*} [NormedCommRing A] [NormedAlgebra ℝ A]

namespace HasGrad

theorem congr {u : ℝ → ℝ → E} {gx gy gx' gy' : E} {x y : ℝ} (h : HasGrad u gx gy x y)
    (hx : gx = gx') (hy : gy = gy') : HasGrad u gx' gy' x y := hx ▸ hy ▸ h

theorem fst (x y : ℝ) : HasGrad (fun x _ => x) (1 : ℝ) 0 x y := by
  refine (hasFDerivAt_fst (𝕜 := ℝ) (p := (x, y))).congr_fderiv ?_
  ext <;> simp

theorem snd (x y : ℝ) : HasGrad (fun _ y => y) (0 : ℝ) 1 x y := by
  refine (hasFDerivAt_snd (𝕜 := ℝ) (p := (x, y))).congr_fderiv ?_
  ext <;> simp

theorem const (c : E) (x y : ℝ) : HasGrad (fun _ _ => c) 0 0 x y := by
  refine (hasFDerivAt_const (𝕜 := ℝ) c (x, y)).congr_fderiv ?_
  ext <;> simp

theorem add {u v : ℝ → ℝ → E} {ux uy vx vy : E} {x y : ℝ} (hu : HasGrad u ux uy x y)
    (hv : HasGrad v vx vy x y) : HasGrad (fun x y => u x y + v x y) (ux + vx) (uy + vy) x y := by
  refine (HasFDerivAt.add hu hv).congr_fderiv ?_
  ext <;> simp

theorem sub {u v : ℝ → ℝ → E} {ux uy vx vy : E} {x y : ℝ} (hu : HasGrad u ux uy x y)
    (hv : HasGrad v vx vy x y) : HasGrad (fun x y => u x y - v x y) (ux - vx) (uy - vy) x y := by
  refine (HasFDerivAt.sub hu hv).congr_fderiv ?_
  ext <;> simp

theorem neg {u : ℝ → ℝ → E} {ux uy : E} {x y : ℝ} (hu : HasGrad u ux uy x y) :
    HasGrad (fun x y => -u x y) (-ux) (-uy) x y := by
  refine (HasFDerivAt.neg hu).congr_fderiv ?_
  ext <;> simp

theorem mul {u v : ℝ → ℝ → A} {ux uy vx vy : A} {x y : ℝ} (hu : HasGrad u ux uy x y)
    (hv : HasGrad v vx vy x y) :
    HasGrad (fun x y => u x y * v x y) (ux * v x y + u x y * vx) (uy * v x y + u x y * vy) x y := by
  refine (HasFDerivAt.mul hu hv).congr_fderiv ?_
  ext <;> simp <;> ring

theorem const_mul {u : ℝ → ℝ → A} {ux uy : A} {x y : ℝ} (c : A) (hu : HasGrad u ux uy x y) :
    HasGrad (fun x y => c * u x y) (c * ux) (c * uy) x y :=
  ((const c x y).mul hu).congr (by ring) (by ring)

theorem comp {u : ℝ → ℝ → ℝ} {ux uy f' : ℝ} {x y : ℝ} {f : ℝ → ℝ} (hu : HasGrad u ux uy x y)
    (hf : HasDerivAt f f' (u x y)) : HasGrad (fun x y => f (u x y)) (f' * ux) (f' * uy) x y := by
  have := HasDerivAt.comp_hasFDerivAt (f := fun p : ℝ × ℝ => u p.1 p.2) (x, y) hf hu
  refine this.congr_fderiv ?_
  ext <;> simp

/-- Change of coordinates. -/
theorem subst {u : ℝ → ℝ → E} {gx gy : E} {X Y : ℝ → ℝ → ℝ} {Xx Xy Yx Yy x y : ℝ}
    (hu : HasGrad u gx gy (X x y) (Y x y)) (hX : HasGrad X Xx Xy x y) (hY : HasGrad Y Yx Yy x y) :
    HasGrad (fun x y => u (X x y) (Y x y)) (Xx • gx + Yx • gy) (Xy • gx + Yy • gy) x y := by
  have hXY := HasFDerivAt.prodMk hX hY
  have := HasFDerivAt.comp (f := fun p : ℝ × ℝ => (X p.1 p.2, Y p.1 p.2))
    (g := fun p : ℝ × ℝ => u p.1 p.2) (x, y) hu hXY
  refine this.congr_fderiv ?_
  ext <;> simp

theorem sum {ι : Type*} (s : Finset ι) {u : ι → ℝ → ℝ → E} {ux uy : ι → E} {x y : ℝ}
    (h : ∀ i ∈ s, HasGrad (u i) (ux i) (uy i) x y) :
    HasGrad (fun x y => ∑ i ∈ s, u i x y) (∑ i ∈ s, ux i) (∑ i ∈ s, uy i) x y := by
  have := HasFDerivAt.fun_sum h
  refine this.congr_fderiv ?_
  ext <;> simp

theorem clm {F : Type*} [NormedAddCommGroup F] [NormedSpace ℝ F] (L : E →L[ℝ] F) {u : ℝ → ℝ → E}
    {ux uy : E} {x y : ℝ} (hu : HasGrad u ux uy x y) :
    HasGrad (fun x y => L (u x y)) (L ux) (L uy) x y := by
  have := L.hasFDerivAt.comp (x, y) hu
  refine this.congr_fderiv ?_
  ext <;> simp

/-- The gradient only depends on the function near the point. -/
theorem congr_near {u v : ℝ → ℝ → E} {gx gy : E} {x y : ℝ} (h : HasGrad u gx gy x y)
    (huv : ∀ᶠ p : ℝ × ℝ in nhds (x, y), v p.1 p.2 = u p.1 p.2) : HasGrad v gx gy x y :=
  HasFDerivAt.congr_of_eventuallyEq h huv

/-- Partial derivatives in the usual sense. -/
theorem partials {u : ℝ → ℝ → E} {gx gy : E} {x y : ℝ} (h : HasGrad u gx gy x y) :
    HasDerivAt (fun s => u s y) gx x ∧ HasDerivAt (fun s => u x s) gy y := by
  constructor
  · have h1 : HasFDerivAt (fun s : ℝ => (s, y)) (ContinuousLinearMap.inl ℝ ℝ ℝ) x :=
      hasFDerivAt_prodMk_left x y
    have := HasFDerivAt.comp (f := fun s : ℝ => (s, y)) (g := fun p : ℝ × ℝ => u p.1 p.2) x h h1
    rw [hasDerivAt_iff_hasFDerivAt]
    refine this.congr_fderiv ?_
    ext; simp
  · have h1 : HasFDerivAt (fun s : ℝ => (x, s)) (ContinuousLinearMap.inr ℝ ℝ ℝ) y :=
      hasFDerivAt_prodMk_right x y
    have := HasFDerivAt.comp (f := fun s : ℝ => (x, s)) (g := fun p : ℝ × ℝ => u p.1 p.2) y h h1
    rw [hasDerivAt_iff_hasFDerivAt]
    refine this.congr_fderiv ?_
    ext; simp

end HasGrad

/-- The distance from the origin. -/
theorem hasGrad_radius {x y : ℝ} (h : x ≠ 0 ∨ y ≠ 0) :
    HasGrad (fun x y => Real.sqrt (x ^ 2 + y ^ 2)) (x / Real.sqrt (x ^ 2 + y ^ 2))
      (y / Real.sqrt (x ^ 2 + y ^ 2)) x y := by
  have hpos : 0 < x ^ 2 + y ^ 2 := by
    rcases h with h | h
    · have := sq_pos_of_ne_zero h; positivity
    · have := sq_pos_of_ne_zero h; positivity
  have hq : HasGrad (fun x y : ℝ => x ^ 2 + y ^ 2) (2 * x) (2 * y) x y := by
    have := ((HasGrad.fst x y).mul (HasGrad.fst x y)).add ((HasGrad.snd x y).mul (HasGrad.snd x y))
    have h2 : (fun x y : ℝ => x ^ 2 + y ^ 2) = fun x y => x * x + y * y := by
      funext x y; ring
    rw [h2]
    exact this.congr (by ring) (by ring)
  have := hq.comp (Real.hasDerivAt_sqrt hpos.ne')
  exact this.congr (by field_simp) (by field_simp)

end Caustics

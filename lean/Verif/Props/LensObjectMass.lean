import Verif.Props.LensClass
import Verif.Props.EnclosedMass2D

/-! C80 and C81, continued: which keywords methods take, and `mass_enclosed_2d` against `surface_density`. -/

namespace Caustics

open Real MeasureTheory LensKind

/-- An argument that is not in the signature is an error, whatever the rest; among them the centre for
`MassSheet.convergence`, anything for `ExternalShear.convergence`, the mass for the deflection and
`raytrace` of the NFW profiles. -/
theorem C81_signatures (e : LensEnv) (p : Kw) (s v x y : ℝ) (b : Bool) :
    call e .sheet .convergence p [("x0", v)] x y = .error .typeError ∧
    call e .sheet .convergence p [("y0", v)] x y = .error .typeError ∧
    (∀ n, call e .shear .convergence p [(n, v)] x y = .error .typeError) ∧
    call e (.point s) .convergence p [("Rein", v)] x y = .error .typeError ∧
    (∀ n, n = "mass" ∨ n = "c" ∨ n = "x0" ∨ n = "y0" →
      call e (.nfw s) .reduced p [(n, v)] x y = .error .typeError ∧
      call e (.nfw s) .raytrace p [(n, v)] x y = .error .typeError) ∧
    (∀ n, n = "mass" ∨ n = "Rs" ∨ n = "tau" ∨ n = "x0" ∨ n = "y0" →
      call e (.tnfw s b) .reduced p [(n, v)] x y = .error .typeError ∧
      call e (.tnfw s b) .raytrace p [(n, v)] x y = .error .typeError) ∧
    call e (.tnfw s b) .massEnclosed p [("mass", v)] x y = .error .typeError ∧
    (∀ k n, call e k .surfaceDensity p [(n, v)] x y = .error .typeError ↔ n ≠ "z_s" ∧ n ≠ "z_l") := by
  refine ⟨by simp [call, accepts], by simp [call, accepts], by simp [call, accepts], by simp [call, accepts], ?_, ?_,
    by simp [call, accepts], ?_⟩
  · rintro n (rfl | rfl | rfl | rfl) <;> simp [call, accepts]
  · rintro n (rfl | rfl | rfl | rfl | rfl) <;> simp [call, accepts]
  · intro k n
    have ha : k.accepts .surfaceDensity = ["z_s", "z_l"] := by cases k <;> rfl
    by_cases h : n = "z_s" ∨ n = "z_l"
    · rw [call_eq (by simp [ha, h])]
      simp only [body]
      constructor
      · intro h'; cases h'
      · rintro ⟨h1, h2⟩; exact absurd h (by tauto)
    · rw [not_or] at h
      simp [call, ha, h]

/-- `mass_enclosed_2d` of a `PseudoJaffe` object is its own `surface_density` summed over the disc, with
the object's own distance to the lens. -/
theorem C80_object_pseudo_jaffe (e : LensEnv) (hc : e.cosmo.Increasing) (hG : 0 < e.cosmo.GOverC2) (s : ℝ) (p : Kw)
    (h0 : 0 < p "z_l") (h1 : p "z_l" < p "z_s") (hm : 0 ≤ p "mass") (hRc : 0 < p "Rc") (hRs : 0 < p "Rs")
    (hne : p "Rc" ≠ p "Rs") {R : ℝ} (hR : 0 < R) :
    ∃ S : ℝ → ℝ → ℝ, (∀ x y, call e (.pseudoJaffe s) .surfaceDensity p [] x y = .ok (.num (some (S x y)))) ∧
      ∀ y, call e (.pseudoJaffe s) .massEnclosed p [] R y = .ok (.num (some
        ((e.cosmo.angular (p "z_l") * arcsecToRad) ^ 2 * ∫ q in skyDisc (p "x0") (p "y0") R, S q.1 q.2))) := by
  obtain ⟨-, l1, s1, d1, -, -, p1⟩ := C22_positive e.cosmo hc hG _ _ h0 h1
  have hL : (pjOf e p).Ok := ⟨hG, hRc, hRs, hne, l1, s1, d1, rfl⟩
  refine ⟨fun x y => (pjOf e p).convergence x y * e.cosmo.criticalSurfaceDensity (p "z_l") (p "z_s"), fun x y => ?_,
    fun y => ?_⟩
  · rw [call_eq (by simp), fill_nil]
    rfl
  · rw [call_eq (by simp), fill_nil]
    have := C80_pseudo_jaffe (pjOf e p) hL hm rfl R hR
    simp only [body, massEnclosed, Except.map, Except.ok.injEq, Out.num.injEq, Option.some.injEq]
    rw [integral_mul_const]
    simp only [pjOf] at this ⊢
    rw [← this]
    ring

/-- The same for `TNFW`, whichever way its mass is interpreted, within the scale radius up to the window
around it.  (Beyond it the enclosed mass is off, see C80.) -/
theorem C80_object_tnfw_partial (e : LensEnv) (hc : e.cosmo.Increasing) (hG : 0 < e.cosmo.GOverC2) (b : Bool) (p : Kw)
    (h0 : 0 < p "z_l") (h1 : p "z_l" < p "z_s") (hM : 0 ≤ (tnfwOf e 0 b p).M0) (hRs : 0 < p "Rs") (htau : 0 < p "tau")
    {R : ℝ} (hR : 0 < R) (hw : R / p "Rs" < 1 - 1e-2) :
    ∃ S : ℝ → ℝ → ℝ, (∀ x y, call e (.tnfw 0 b) .surfaceDensity p [] x y = .ok (.num (some (S x y)))) ∧
      ∀ y, call e (.tnfw 0 b) .massEnclosed p [] R y = .ok (.num (some
        ((e.cosmo.angular (p "z_l") * arcsecToRad) ^ 2 * ∫ q in skyDisc (p "x0") (p "y0") R, S q.1 q.2))) := by
  obtain ⟨-, l1, s1, d1, -, -, p1⟩ := C22_positive e.cosmo hc hG _ _ h0 h1
  have hL : (tnfwOf e 0 b p).toTNFW.Ok := ⟨hG, hRs, htau, l1, s1, d1, rfl⟩
  refine ⟨fun x y => (tnfwOf e 0 b p).toTNFW.convergence x y * e.cosmo.criticalSurfaceDensity (p "z_l") (p "z_s"),
    fun x y => ?_, fun y => ?_⟩
  · rw [call_eq (by simp), fill_nil]
    rfl
  · rw [call_eq (by simp), fill_nil]
    have := C80_tnfw_partial (tnfwOf e 0 b p).toTNFW hL hM rfl R hR hw
    simp only [body, massEnclosed, Except.map, Except.ok.injEq, Out.num.injEq, Option.some.injEq]
    rw [integral_mul_const]
    have e1 : tnfwMassEnclosed R (p "Rs") (p "tau") (tnfwOf e 0 b p).M0 = tnfwMassEnclosed R (tnfwOf e 0 b p).toTNFW.Rs
      (tnfwOf e 0 b p).toTNFW.tau (tnfwOf e 0 b p).toTNFW.M0 := rfl
    rw [e1, ← this]
    change e.cosmo.criticalSurfaceDensity (p "z_l") (p "z_s") * (e.cosmo.angular (p "z_l") * arcsecToRad) ^ 2 *
      (∫ q in skyDisc (p "x0") (p "y0") R, (tnfwOf e 0 b p).toTNFW.convergence q.1 q.2) = _
    ring

-- the mass inside four arcseconds of a pseudo-Jaffe lens with radii 1 and 2
example : ∃ S : ℝ → ℝ → ℝ, (∀ x y, call exampleEnv (.pseudoJaffe 0) .surfaceDensity exampleStore [] x y =
      .ok (.num (some (S x y)))) ∧
    ∀ y, call exampleEnv (.pseudoJaffe 0) .massEnclosed exampleStore [] 4 y =
      .ok (.num (some ((exampleEnv.cosmo.angular 1 * arcsecToRad) ^ 2 * ∫ q in skyDisc 1 1 4, S q.1 q.2))) := by
  have := C80_object_pseudo_jaffe exampleEnv exampleEnv_increasing one_pos 0 exampleStore
    (by norm_num [exampleStore_values]) (by norm_num [exampleStore_values]) (by norm_num [exampleStore_values])
    (by norm_num [exampleStore_values]) (by norm_num [exampleStore_values]) (by norm_num [exampleStore_values])
    (R := 4) (by norm_num)
  simpa only [exampleStore_values] using this

example (v : ℝ) : call exampleEnv .sheet .convergence exampleStore [("x0", v)] 0 0 = .error .typeError :=
  (C81_signatures exampleEnv exampleStore 0 v 0 0 true).1

end Caustics

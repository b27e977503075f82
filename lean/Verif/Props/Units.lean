import Verif.Props.MassSheetDegeneracy
import Verif.Model.Light
import Verif.Model.PixLight
import Verif.Model.Bicubic

/-!
C95: the library has no unit of angle of its own.  Positions and every parameter that is an angle may be
given in another unit: deflections and images come out in that unit, convergence, magnification and
brightness are unchanged, time delays between images change by the square of the factor.
-/

open Real

namespace Caustics

/-- `l'` is the lens `l` with every angle multiplied by `k`; a potential is only meaningful up to a
constant. -/
def Rescaled (k : ℝ) (l l' : LensFn ℝ) : Prop :=
  ∃ c, ∀ x y, l'.deflection (k * x) (k * y) = (k * (l.deflection x y).1, k * (l.deflection x y).2) ∧
    l'.convergence (k * x) (k * y) = l.convergence x y ∧
    l'.potential (k * x) (k * y) = k ^ 2 * (l.potential x y + c)

theorem translateRotate_scale (k x y x0 y0 : ℝ) (phi : Option ℝ) :
    translateRotate (k * x) (k * y) (k * x0) (k * y0) phi
      = (k * (translateRotate x y x0 y0 phi).1, k * (translateRotate x y x0 y0 phi).2) := by
  cases phi <;> simp only [translateRotate, Prod.mk.injEq] <;> constructor <;> ring

theorem derotate_scale (k a b : ℝ) (phi : Option ℝ) :
    derotate (k * a) (k * b) phi = (k * (derotate a b phi).1, k * (derotate a b phi).2) := by
  cases phi <;> simp only [derotate, Prod.mk.injEq]
  constructor <;> ring

theorem sqrt_units {k : ℝ} (hk : 0 ≤ k) (a : ℝ) : √(k ^ 2 * a) = k * √a := by
  rw [Real.sqrt_mul (sq_nonneg k), Real.sqrt_sq hk]

theorem radius_scale {k : ℝ} (hk : 0 ≤ k) (a b : ℝ) : √((k * a) ^ 2 + (k * b) ^ 2) = k * √(a ^ 2 + b ^ 2) := by
  rw [← sqrt_units hk]; congr 1; ring

theorem arctan2_scale {k : ℝ} (hk : 0 < k) (y x : ℝ) : arctan2 (k * y) (k * x) = arctan2 y x := by
  unfold arctan2
  rw [← Complex.arg_real_mul ⟨x, y⟩ hk]
  congr 1
  apply Complex.ext <;> simp

/-! ### What a rescaled lens does -/

/-- Rays meet the source plane at the rescaled place. -/
theorem C95_raytrace {k z : ℝ} {l l' : LensFn ℝ} (h : Rescaled k l l') (x y : ℝ) :
    (onlyLens z l').raytrace (k * x) (k * y)
      = (k * ((onlyLens z l).raytrace x y).1, k * ((onlyLens z l).raytrace x y).2) := by
  obtain ⟨c, h⟩ := h
  simp only [ThinLensFn.raytrace, onlyLens, (h x y).1, Prod.mk.injEq]
  constructor <;> ring

/-- The images of the rescaled source are the rescaled images, all of them. -/
theorem C95_images {k z : ℝ} (hk : 0 < k) {l l' : LensFn ℝ} (h : Rescaled k l l') (b : ℝ × ℝ) :
    {p : ℝ × ℝ | (onlyLens z l').raytrace p.1 p.2 = (k * b.1, k * b.2)}
      = (fun p : ℝ × ℝ => (k * p.1, k * p.2)) '' {p | (onlyLens z l).raytrace p.1 p.2 = b} := by
  have key : ∀ x y, (onlyLens z l').raytrace (k * x) (k * y) = (k * b.1, k * b.2) ↔ (onlyLens z l).raytrace x y = b := by
    intro x y
    rw [C95_raytrace h, Prod.ext_iff, Prod.ext_iff]
    simp only [mul_right_inj' hk.ne']
  ext ⟨u, v⟩
  simp only [Set.mem_ofPred_eq, Set.mem_image, Prod.mk.injEq, Prod.exists]
  constructor
  · intro hu
    refine ⟨u / k, v / k, (key _ _).1 ?_, by field_simp, by field_simp⟩
    rwa [mul_div_cancel₀ _ hk.ne', mul_div_cancel₀ _ hk.ne']
  · rintro ⟨a, c, hac, rfl, rfl⟩
    exact (key a c).2 hac

/-- The Jacobian of the lens map, hence the magnification, is the same number. -/
theorem C95_magnification {k z : ℝ} (hk : 0 < k) {l l' : LensFn ℝ} (h : Rescaled k l l') {x y : ℝ} {M M' : M22 ℝ}
    (hM : HasJac (onlyLens z l).raytrace M.a00 M.a01 M.a10 M.a11 x y)
    (hM' : HasJac (onlyLens z l').raytrace M'.a00 M'.a01 M'.a10 M'.a11 (k * x) (k * y)) :
    M' = M ∧ pixelMagnification M' = pixelMagnification M := by
  have e : M' = M := by
    have hX : HasGrad (fun x _ : ℝ => k * x) k 0 x y :=
      ((HasGrad.fst x y).const_mul k).congr (by ring) (by ring)
    have hY : HasGrad (fun _ y : ℝ => k * y) 0 k x y :=
      ((HasGrad.snd x y).const_mul k).congr (by ring) (by ring)
    have h1 := HasGrad.subst hM'.1 hX hY
    have h2 := HasGrad.subst hM'.2 hX hY
    simp only [C95_raytrace h] at h1 h2
    obtain ⟨e00, e01⟩ := h1.unique (hM.1.const_mul k)
    obtain ⟨e10, e11⟩ := h2.unique (hM.2.const_mul k)
    simp only [smul_eq_mul, zero_mul, add_zero, zero_add] at e00 e01 e10 e11
    have := hk.ne'
    cases M; cases M'
    simp only [M22.mk.injEq]
    exact ⟨mul_left_cancel₀ this e00, mul_left_cancel₀ this e01, mul_left_cancel₀ this e10, mul_left_cancel₀ this e11⟩
  exact ⟨e, by rw [e]⟩

/-- Delays between any two positions change by the square of the factor, with or without either term. -/
theorem C95_delay {k z : ℝ} {l l' : LensFn ℝ} (h : Rescaled k l l') (e : MPEnv ℝ) (zs : ℝ) (shapiro geometric : Bool)
    (p p' : ℝ × ℝ) :
    (onlyLens z l').timeDelay e zs shapiro geometric (k * p.1) (k * p.2)
        - (onlyLens z l').timeDelay e zs shapiro geometric (k * p'.1) (k * p'.2)
      = k ^ 2 * ((onlyLens z l).timeDelay e zs shapiro geometric p.1 p.2
          - (onlyLens z l).timeDelay e zs shapiro geometric p'.1 p'.2) := by
  obtain ⟨c, h⟩ := h
  cases shapiro <;> cases geometric <;>
    simp only [ThinLensFn.timeDelay, onlyLens, (h p.1 p.2).1, (h p.1 p.2).2.2, (h p'.1 p'.2).1, (h p'.1 p'.2).2.2,
      if_true, Bool.false_eq_true, if_false] <;> ring

/-- A plane of rescaled lenses is the rescaled plane. -/
theorem C95_plane {k : ℝ} (ls : List (LensFn ℝ × LensFn ℝ)) (h : ∀ l ∈ ls, Rescaled k l.1 l.2) :
    Rescaled k (singlePlane (ls.map Prod.fst)) (singlePlane (ls.map Prod.snd)) := by
  induction ls using List.reverseRecOn with
  | nil =>
    refine ⟨0, fun x y => ?_⟩
    simp [singlePlane, singlePlaneDeflection, singlePlaneConvergence, singlePlanePotential]
  | append_singleton ls l ih =>
    obtain ⟨c, hc⟩ := ih (fun m hm => h m (by simp [hm]))
    obtain ⟨d, hd⟩ := h l (by simp)
    refine ⟨c + d, fun x y => ?_⟩
    obtain ⟨h1, h2, h3⟩ := hc x y
    obtain ⟨g1, g2, g3⟩ := hd x y
    simp only [singlePlane, singlePlaneDeflection, singlePlaneConvergence, singlePlanePotential, List.map_append,
      List.map_cons, List.map_nil, List.foldl_append, List.foldl_cons, List.foldl_nil] at h1 h2 h3 ⊢
    rw [h1, h2, h3, g1, g2, g3]
    refine ⟨by ext <;> simp only <;> ring, rfl, by ring⟩

/-! ### Which parameters are angles -/

/-- SIS: centre, Einstein radius, softening.  Mass sheet and shear: the centre only.  Multipoles: centre
and amplitudes. -/
theorem C95_rescaled {k : ℝ} (hk : 0 < k) (x0 y0 : ℝ) :
    (∀ Rein s, Rescaled k ⟨sisDeflection x0 y0 Rein s, sisConvergence x0 y0 Rein s, sisPotential x0 y0 Rein s⟩
      ⟨sisDeflection (k * x0) (k * y0) (k * Rein) (k * s), sisConvergence (k * x0) (k * y0) (k * Rein) (k * s),
        sisPotential (k * x0) (k * y0) (k * Rein) (k * s)⟩) ∧
    (∀ kappa, Rescaled k (sheetFn x0 y0 kappa) (sheetFn (k * x0) (k * y0) kappa)) ∧
    (∀ g1 g2, Rescaled k ⟨shearDeflection x0 y0 g1 g2, shearConvergence, shearPotential x0 y0 g1 g2⟩
      ⟨shearDeflection (k * x0) (k * y0) g1 g2, shearConvergence, shearPotential (k * x0) (k * y0) g1 g2⟩) ∧
    (∀ (n : ℕ) (m a phim : Fin n → ℝ),
      Rescaled k ⟨multipoleDeflection x0 y0 m a phim, multipoleConvergence x0 y0 m a phim, multipolePotential x0 y0 m a phim⟩
        ⟨multipoleDeflection (k * x0) (k * y0) m (fun i => k * a i) phim,
          multipoleConvergence (k * x0) (k * y0) m (fun i => k * a i) phim,
          multipolePotential (k * x0) (k * y0) m (fun i => k * a i) phim⟩) := by
  have hk0 := hk.ne'
  refine ⟨fun Rein s => ⟨0, fun x y => ?_⟩, fun kappa => ⟨0, fun x y => ?_⟩, fun g1 g2 => ⟨0, fun x y => ?_⟩,
    fun n m a phim => ⟨0, fun x y => ?_⟩⟩
  · simp only [sisDeflection, sisConvergence, sisPotential, translateRotate_scale, radius_scale hk.le]
    generalize (translateRotate x y x0 y0 none).1 = u
    generalize (translateRotate x y x0 y0 none).2 = v
    simp only [← mul_add]
    generalize √(u ^ 2 + v ^ 2) + s = R
    refine ⟨?_, ?_, by ring⟩
    · simp only [Prod.mk.injEq]
      constructor <;> rw [mul_assoc, mul_div_mul_left _ _ hk0] <;> ring
    · rw [mul_left_comm, mul_div_mul_left _ _ hk0]
  · simp only [sheetFn, sheetDeflection, sheetConvergence, sheetPotential, translateRotate_scale]
    refine ⟨?_, trivial, by ring⟩
    simp only [Prod.mk.injEq]
    constructor <;> ring
  · simp only [shearDeflection, shearConvergence, shearPotential, translateRotate_scale]
    refine ⟨?_, trivial, by ring⟩
    simp only [Prod.mk.injEq]
    constructor <;> ring
  · simp only [multipoleDeflection, multipoleConvergence, multipolePotential, translateRotate_scale, radius_scale hk.le,
      arctan2_scale hk]
    refine ⟨?_, ?_, ?_⟩
    · simp only [Prod.mk.injEq, Finset.mul_sum]
      constructor <;> refine Finset.sum_congr rfl fun i _ => ?_ <;> ring
    · refine Finset.sum_congr rfl fun i _ => ?_
      field_simp
    · rw [add_zero, Finset.mul_sum]
      refine Finset.sum_congr rfl fun i _ => ?_
      ring

/-- Point mass: centre, Einstein radius, softening; away from the centre unless softened. -/
theorem C95_point {k : ℝ} (hk : 0 < k) (x0 y0 Rein : ℝ) {s x y : ℝ} (hs : 0 ≤ s) (h : x ≠ x0 ∨ y ≠ y0 ∨ 0 < s) :
    pointDeflection (k * x0) (k * y0) (k * Rein) (k * s) (k * x) (k * y)
      = (k * (pointDeflection x0 y0 Rein s x y).1, k * (pointDeflection x0 y0 Rein s x y).2) ∧
    pointConvergence (k * x0) (k * y0) (k * x) (k * y) = pointConvergence x0 y0 x y ∧
    pointPotential (k * x0) (k * y0) (k * Rein) (k * s) (k * x) (k * y)
      = k ^ 2 * (pointPotential x0 y0 Rein s x y + Rein ^ 2 * log k) := by
  have hk0 := hk.ne'
  have hR : 0 < √((x - x0) ^ 2 + (y - y0) ^ 2) + s := by
    rcases h with h | h | h
    · have := sub_ne_zero.2 h
      positivity
    · have := sub_ne_zero.2 h
      positivity
    · positivity
  refine ⟨?_, ?_, ?_⟩
  · simp only [pointDeflection, translateRotate_scale, radius_scale hk.le, ← mul_add]
    simp only [translateRotate] at hR ⊢
    simp only [Prod.mk.injEq]
    constructor <;> field_simp
  · simp only [pointConvergence, translateRotate_scale, mul_eq_zero, hk0, false_or]
  · simp only [pointPotential, translateRotate_scale, radius_scale hk.le, ← mul_add]
    simp only [translateRotate] at hR ⊢
    rw [log_mul hk0 hR.ne']
    ring

/-- SIE: centre, Einstein radius and core; the axis ratio and the angle stay. -/
theorem C95_sie {k : ℝ} (hk : 0 < k) (x0 y0 q phi Rein s x y : ℝ) :
    sieDeflection (k * x0) (k * y0) q phi (k * Rein) (k * s) (k * x) (k * y)
      = (k * (sieDeflection x0 y0 q phi Rein s x y).1, k * (sieDeflection x0 y0 q phi Rein s x y).2) ∧
    sieConvergence (k * x0) (k * y0) q phi (k * Rein) (k * s) (k * x) (k * y)
      = sieConvergence x0 y0 q phi Rein s x y := by
  have hk0 := hk.ne'
  have hpsi : ∀ q u v : ℝ, √(q ^ 2 * ((k * u) ^ 2 + (k * s) ^ 2) + (k * v) ^ 2) = k * √(q ^ 2 * (u ^ 2 + s ^ 2) + v ^ 2) := by
    intro q u v
    rw [← sqrt_units hk.le]; congr 1; ring
  constructor
  · simp only [sieDeflection, translateRotate_scale, hpsi]
    generalize sieQ q = q
    rw [← derotate_scale]
    congr 1
    · rw [← mul_add, mul_left_comm _ k, mul_div_mul_left _ _ hk0]; ring
    · rw [mul_left_comm (q ^ 2) k, ← mul_add, mul_left_comm _ k, mul_div_mul_left _ _ hk0]; ring
  · simp only [sieConvergence, translateRotate_scale, hpsi]
    rw [mul_left_comm _ k, mul_div_mul_left _ _ hk0]

/-- Its potential too, for a core that is absent or not below the code's floor of `1e-6` in either unit. -/
theorem C95_sie_potential_partial {k : ℝ} (hk : 0 < k) (x0 y0 q phi Rein s x y : ℝ) (hq : 0 < q)
    (hq1 : q ≤ 1) (hs : s = 0 ∨ 1e-6 ≤ s ∧ 1e-6 ≤ k * s) :
    siePotential (k * x0) (k * y0) q phi (k * Rein) (k * s) (k * x) (k * y)
      = k ^ 2 * siePotential x0 y0 q phi Rein s x y := by
  have hk0 := hk.ne'
  have hpsi : ∀ q u v : ℝ, √(q ^ 2 * ((k * u) ^ 2 + (k * s) ^ 2) + (k * v) ^ 2) = k * √(q ^ 2 * (u ^ 2 + s ^ 2) + v ^ 2) := by
    intro q u v
    rw [← sqrt_units hk.le]; congr 1; ring
  simp only [siePotential, (C95_sie hk x0 y0 q phi Rein s x y).1, translateRotate_scale, derotate_scale, hpsi]
  generalize derotate _ _ _ = a
  generalize translateRotate x y x0 y0 _ = p
  rcases hs with rfl | ⟨h1, h2⟩
  · ring
  · rw [max_eq_left h1, max_eq_left h2]
    have hs0 : 0 < s := lt_of_lt_of_le (by norm_num) h1
    have hψ := sqrt_nonneg (q ^ 2 * (p.1 ^ 2 + s ^ 2) + p.2 ^ 2)
    generalize √(q ^ 2 * (p.1 ^ 2 + s ^ 2) + p.2 ^ 2) = ψ at *
    have e : √((k * ψ + k * s) ^ 2 + (1 - q ^ 2) * (k * p.1) ^ 2) = k * √((ψ + s) ^ 2 + (1 - q ^ 2) * p.1 ^ 2) := by
      rw [← sqrt_units hk.le]; congr 1; ring
    have hq2 : 0 ≤ 1 - q ^ 2 := by nlinarith
    have hpos : 0 < √((ψ + s) ^ 2 + (1 - q ^ 2) * p.1 ^ 2) := sqrt_pos.2 (by positivity)
    rw [e, log_mul hk0 hpos.ne', mul_left_comm (1 + q) k s, log_mul hk0 (by positivity)]
    ring

/-- Elliptical power law: centre and Einstein radius (and the softening of the convergence); errors are
the same errors. -/
theorem C95_epl {k : ℝ} (hk : 0 < k) (x0 y0 q phi Rein t s x y : ℝ) (n_iter : ℕ) (chunk_size : Option ℕ) :
    eplDeflection (k * x0) (k * y0) q phi (k * Rein) t n_iter chunk_size (k * x) (k * y)
      = (eplDeflection x0 y0 q phi Rein t n_iter chunk_size x y).map (fun a => (k * a.1, k * a.2)) ∧
    eplPotential (k * x0) (k * y0) q phi (k * Rein) t n_iter chunk_size (k * x) (k * y)
      = (eplPotential x0 y0 q phi Rein t n_iter chunk_size x y).map (fun a => k ^ 2 * a) ∧
    eplConvergence (k * x0) (k * y0) q phi (k * Rein) t (k * s) (k * x) (k * y)
      = eplConvergence x0 y0 q phi Rein t s x y := by
  have hk0 := hk.ne'
  have hkc : (k : ℂ) ≠ 0 := by exact_mod_cast hk0
  have hloop : ∀ (l : List ℕ) (phi : ℂ) (a b : ℂ),
      (l.foldl (fun (s : ℂ × ℂ) i => ((eplFactor t i : ℂ) * phi * s.1, s.2 + (eplFactor t i : ℂ) * phi * s.1)) (k * a, k * b))
        = ((k : ℂ) * (l.foldl (fun (s : ℂ × ℂ) i => ((eplFactor t i : ℂ) * phi * s.1, s.2 + (eplFactor t i : ℂ) * phi * s.1)) (a, b)).1,
           (k : ℂ) * (l.foldl (fun (s : ℂ × ℂ) i => ((eplFactor t i : ℂ) * phi * s.1, s.2 + (eplFactor t i : ℂ) * phi * s.1)) (a, b)).2) := by
    intro l phi
    induction l with
    | nil => intro a b; rfl
    | cons i l ih =>
      intro a b
      simp only [List.foldl_cons]
      rw [← ih]
      congr 2
      · ring
      · ring
  have hom : ∀ z : ℂ, rOmega (k * z) t q n_iter chunk_size = (rOmega z t q n_iter chunk_size).map (fun w => (k : ℂ) * w) := by
    intro z
    have hphi : (k : ℂ) * z / (starRingEnd ℂ) (k * z) = z / (starRingEnd ℂ) z := by
      rw [map_mul, Complex.conj_ofReal, mul_div_mul_left _ _ hkc]
    simp only [rOmega, hphi]
    split_ifs
    · simp only [Except.map, rOmegaLoop, hloop]
    · rfl
    · simp only [bind, Except.bind]
      generalize (List.foldlM (m := Except PyErr) _ _ _) = r
      cases r with
      | error e => rfl
      | ok s =>
        cases s with
        | none => rfl
        | some s => simp only [Except.map, mul_assoc]
  have hframe : ∀ u v, eplFrame q (k * Rein) t n_iter chunk_size (k * u) (k * v)
      = (eplFrame q Rein t n_iter chunk_size u v).map (fun a => (k * a.1, k * a.2)) := by
    intro u v
    have hz : (⟨q * (k * u), k * v⟩ : ℂ) = k * ⟨q * u, v⟩ := by
      apply Complex.ext <;> simp; ring
    simp only [eplFrame, hz, hom, bind, Except.bind]
    cases rOmega (⟨q * u, v⟩ : ℂ) t q n_iter chunk_size with
    | error e => rfl
    | ok ro =>
      simp only [Except.map, mul_eq_zero, hkc, false_or]
      split_ifs with h
      · simp
      · congr 1
        rw [norm_mul, Complex.norm_real, Real.norm_of_nonneg hk.le, mul_assoc k Rein, mul_div_mul_left _ _ hk0]
        simp only [Complex.re_ofReal_mul, Complex.im_ofReal_mul, Prod.mk.injEq]
        constructor <;> ring
  have hd : eplDeflection (k * x0) (k * y0) q phi (k * Rein) t n_iter chunk_size (k * x) (k * y)
      = (eplDeflection x0 y0 q phi Rein t n_iter chunk_size x y).map (fun a => (k * a.1, k * a.2)) := by
    simp only [eplDeflection, translateRotate_scale, hframe]
    cases eplFrame q Rein t n_iter chunk_size (translateRotate x y x0 y0 (some phi)).1 (translateRotate x y x0 y0 (some phi)).2 with
    | error e => rfl
    | ok a => simp only [Except.map, bind, Except.bind, derotate_scale]
  refine ⟨hd, ?_, ?_⟩
  · simp only [eplPotential, hd]
    cases eplDeflection x0 y0 q phi Rein t n_iter chunk_size x y with
    | error e => rfl
    | ok a =>
      simp only [Except.map, bind, Except.bind, derotate_scale, translateRotate_scale]
      congr 1
      ring
  · simp only [eplConvergence, translateRotate_scale]
    have e : ∀ u v : ℝ, √(q ^ 2 * (k * u) ^ 2 + (k * v) ^ 2 + (k * s) ^ 2) = k * √(q ^ 2 * u ^ 2 + v ^ 2 + s ^ 2) := by
      intro u v
      rw [← sqrt_units hk.le]; congr 1; ring
    rw [e, mul_assoc k Rein, mul_div_mul_left _ _ hk0]

/-- Pseudo-Jaffe: centre, both radii, and the mass by the square; the class gives no softening. -/
theorem C95_pseudo_jaffe {k : ℝ} (hk : 0 < k) (L : PJaffe) (hs : L.s = 0) (hc : 0 < L.Rc) (hcs : L.Rc < L.Rs) :
    Rescaled k ⟨L.deflection, L.convergence, L.potential⟩
      (let L' : PJaffe := { L with x0 := k * L.x0, y0 := k * L.y0, Rc := k * L.Rc, Rs := k * L.Rs, mass := k ^ 2 * L.mass }
       ⟨L'.deflection, L'.convergence, L'.potential⟩) := by
  have hk0 := hk.ne'
  have hRs : 0 < L.Rs := hc.trans hcs
  have hd : L.Rs - L.Rc ≠ 0 := (sub_pos.2 hcs).ne'
  have h0 : ∀ sg, pjKappa0 (k ^ 2 * L.mass) (k * L.Rc) (k * L.Rs) L.d_l sg = pjKappa0 L.mass L.Rc L.Rs L.d_l sg := by
    intro sg
    unfold pjKappa0
    rw [show 2 * π * sg * (k * L.Rc) * (k * L.Rs) * (L.d_l * arcsecToRad) ^ 2
        = k ^ 2 * (2 * π * sg * L.Rc * L.Rs * (L.d_l * arcsecToRad) ^ 2) by ring, mul_div_mul_left _ _ (pow_ne_zero 2 hk0)]
  have hC : k * L.Rc * (k * L.Rs) / (k * L.Rs - k * L.Rc) = k * (L.Rc * L.Rs / (L.Rs - L.Rc)) := by
    rw [← mul_sub, show k * L.Rc * (k * L.Rs) = k * (k * (L.Rc * L.Rs)) by ring, mul_div_mul_left _ _ hk0, mul_div_assoc]
  have hq : ∀ R : ℝ, 0 < R → ∀ u v : ℝ, √((k * R) ^ 2 + ((k * u) ^ 2 + (k * v) ^ 2 + 0)) = k * √(R ^ 2 + (u ^ 2 + v ^ 2 + 0)) := by
    intro R _ u v
    rw [← sqrt_units hk.le]; congr 1; ring
  set A := pjKappa0 L.mass L.Rc L.Rs L.d_l 1 with hA
  refine ⟨-(8 * π * L.Gc2 * A * (L.d_l * L.d_ls / L.d_s)) * (L.Rc * L.Rs / (L.Rs - L.Rc)) * ((L.Rc - L.Rs) * log k), fun x y => ?_⟩
  refine ⟨?_, ?_, ?_⟩
  · simp only [PJaffe.deflection, translateRotate_scale, h0, radius_scale hk.le, hs, add_zero]
    generalize (translateRotate x y L.x0 L.y0 none).1 = u
    generalize (translateRotate x y L.x0 L.y0 none).2 = v
    generalize √(u ^ 2 + v ^ 2) = R
    rw [mul_assoc (2 * _) (k * L.Rc), mul_div_assoc (2 * _), hC, mul_div_mul_left _ _ hk0, mul_div_mul_left R L.Rs hk0, mul_assoc k L.Rs,
      mul_div_mul_left R _ hk0]
    generalize R / L.Rc / (1 + √(1 + (R / L.Rc) ^ 2)) - R / (L.Rs * (1 + √(1 + (R / L.Rs) ^ 2))) = f
    simp only [Prod.mk.injEq]
    constructor
    · rw [mul_left_comm _ k u, mul_div_mul_left _ _ hk0]; ring
    · rw [mul_left_comm _ k v, mul_div_mul_left _ _ hk0]; ring
  · simp only [PJaffe.convergence, translateRotate_scale, h0, hs, hq _ hc, hq _ hRs]
    rw [mul_assoc _ (k * L.Rc), mul_div_assoc _ (k * L.Rc * _), hC]
    field_simp
  · simp only [PJaffe.potential, translateRotate_scale, h0, hs, hq _ hc, hq _ hRs, ← hA]
    generalize translateRotate x y L.x0 L.y0 none = p
    rw [mul_assoc _ (k * L.Rc), mul_div_assoc _ (k * L.Rc * _), hC, ← mul_add, ← mul_add, log_mul hk0 (by positivity),
      log_mul hk0 (by positivity)]
    ring

/-! ### Maps on pixels -/

theorem query_scale {k : ℝ} (hk : 0 < k) (a b w p : ℝ) : (k * a - k * b) / (w * (k * p)) * 2 = (a - b) / (w * p) * 2 := by
  rw [← mul_sub, mul_left_comm w k p, mul_div_mul_left _ _ hk.ne']

/-- Brightness on pixels, deflection on pixels and the potential on pixels with the same entries: with
centre and pixel scale in the other unit the same entries are read.  The gradient of the potential is then
per unit angle, the convergence per unit angle squared. -/
theorem C95_pixels {k : ℝ} (hk : 0 < k) (x0 y0 ps x y : ℝ) :
    (∀ image scale padding, pixelatedBrightness image (k * x0) (k * y0) (k * ps) scale (k * x) (k * y) padding
      = pixelatedBrightness image x0 y0 ps scale x y padding) ∧
    (∀ cube tEnd scale t, pixelatedTimeBrightness cube (k * x0) (k * y0) (k * ps) tEnd scale (k * x) (k * y) t
      = pixelatedTimeBrightness cube x0 y0 ps tEnd scale x y t) ∧
    (∀ map, pixelatedDeflection map (k * x0) (k * y0) (k * ps) (k * x) (k * y) = pixelatedDeflection map x0 y0 ps x y) ∧
    (∀ (h w : ℕ) (map : Fin h → Fin w → ℝ),
      let P : PixPot h w ℝ := ⟨x0, y0, map, ps⟩
      let P' : PixPot h w ℝ := ⟨k * x0, k * y0, map, k * ps⟩
      P'.potential (k * x) (k * y) = P.potential x y ∧
      P'.deflection (k * x) (k * y) = (P.deflection x y).map (fun a => (a.1 / k, a.2 / k)) ∧
      P'.convergence (k * x) (k * y) = (P.convergence x y).map (fun a => a / k ^ 2)) := by
  have q' : ∀ a b w p : ℝ, (k * a - k * b) / (k * p * w) * 2 = (a - b) / (p * w) * 2 := by
    intro a b w p
    rw [mul_comm (k * p) w, query_scale hk, mul_comm w p]
  refine ⟨fun image scale padding => ?_, fun cube tEnd scale t => ?_, fun map => ?_, fun h w map => ?_⟩
  · cases image <;> simp only [pixelatedBrightness, q']
  · cases cube <;> simp only [pixelatedTimeBrightness, q']
  · cases map <;> simp only [pixelatedDeflection, query_scale hk]
  · intro P P'
    have hq : ∀ a b c, P'.query (k * x) (k * y) a b c = P.query x y a b c := by
      intro a b c
      simp only [PixPot.query, P, P', query_scale hk]
    refine ⟨?_, ?_, ?_⟩
    · simp only [PixPot.potential, hq]
    · simp only [PixPot.deflection, hq, bind, Except.bind]
      cases P.query x y false true false with
      | error e => rfl
      | ok l =>
        rcases l with _ | ⟨a, _ | ⟨b, _ | ⟨c, l⟩⟩⟩ <;> simp only [Except.map, pure, Except.pure, P, P'] 
        congr 1
        simp only [Prod.mk.injEq]
        constructor <;> rw [div_div, mul_comm]
    · simp only [PixPot.convergence, hq, bind, Except.bind]
      cases P.query x y false false true with
      | error e => rfl
      | ok l =>
        rcases l with _ | ⟨a, _ | ⟨b, _ | ⟨c, _ | ⟨d, l⟩⟩⟩⟩ <;> simp only [Except.map, pure, Except.pure, P, P']
        congr 1
        rw [div_div]
        congr 1
        ring

/-! ### Light -/

/-- Sérsic light: centre, effective radius, softening. -/
theorem C95_sersic {k : ℝ} (hk : 0 < k) (lenstronomy : Bool) (s x0 y0 q phi n Re Ie x y : ℝ) :
    Sersic.brightness lenstronomy (k * s) (k * x0) (k * y0) q phi n (k * Re) Ie (k * x) (k * y)
      = Sersic.brightness lenstronomy s x0 y0 q phi n Re Ie x y := by
  simp only [Sersic.brightness, brightnessSersic, translateRotate_scale, toElliptical]
  rw [mul_div_assoc, radius_scale hk.le, ← mul_add, mul_div_mul_left _ _ hk.ne']

/-- The full claim for a star: its surface brightness does not depend on the unit of angle. -/
def C95_star_statement : Prop :=
  ∀ (k x0 y0 thetaS Ie x y gamma : ℝ), 0 < k → 0 < thetaS →
    brightnessStar (k * x0) (k * y0) (k * thetaS) Ie (k * x) (k * y) gamma = brightnessStar x0 y0 thetaS Ie x y gamma

/-- It fails: the limb-darkening law compares the distance with one, not with the radius of the star. -/
theorem C95_star_fails : ¬ C95_star_statement := by
  intro h
  have h1 := h 2 0 0 1 1 1 0 1 (by norm_num) (by norm_num)
  simp only [brightnessStar, translateRotate, mul_zero, sub_zero, mul_one] at h1
  have h4 : √(2 ^ 2 + (0 : ℝ) ^ 2) = 2 := by
    rw [show (2 : ℝ) ^ 2 + 0 ^ 2 = 2 ^ 2 by norm_num, sqrt_sq (by norm_num)]
  rw [h4] at h1
  norm_num at h1
  cases h1

/-- Without limb darkening, and where the law gives a number at all, it holds. -/
theorem C95_star_partial {k : ℝ} (hk : 0 < k) (x0 y0 thetaS Ie x y : ℝ) (ht : thetaS ≤ 1) (hkt : k * thetaS ≤ 1) :
    brightnessStar (k * x0) (k * y0) (k * thetaS) Ie (k * x) (k * y) 0 = brightnessStar x0 y0 thetaS Ie x y 0 := by
  simp only [brightnessStar, translateRotate_scale, radius_scale hk.le]
  generalize hR : √((translateRotate x y x0 y0 none).1 ^ 2 + (translateRotate x y x0 y0 none).2 ^ 2) = R
  have hR0 : 0 ≤ R := hR ▸ sqrt_nonneg _
  by_cases h : R ≤ thetaS
  · have h' : k * R ≤ k * thetaS := mul_le_mul_of_nonneg_left h hk.le
    have hk0 : 0 ≤ k * R := by positivity
    rw [if_pos h, if_pos h', if_neg (by nlinarith), if_neg (by nlinarith)]
    simp
  · have h' : ¬ k * R ≤ k * thetaS := fun h' => h (le_of_mul_le_mul_left h' hk)
    rw [if_neg h, if_neg h']

/-- The full claim for the potential of an ellipsoid with any core, up to a constant. -/
def C95_sie_statement : Prop :=
  ∀ (k x0 y0 q phi Rein s : ℝ), 0 < k → 0 < q → q ≤ 1 → 0 ≤ s → ∃ c, ∀ x y,
    siePotential (k * x0) (k * y0) q phi (k * Rein) (k * s) (k * x) (k * y)
      = k ^ 2 * (siePotential x0 y0 q phi Rein s x y + c)

/-- It fails for a core below the floor: a core of `5e-7` in one unit is `1e-6` in another. -/
theorem C95_sie_fails : ¬ C95_sie_statement := by
  intro h
  obtain ⟨c, hc⟩ := h 2 0 0 1 0 1 5e-7 (by norm_num) (by norm_num) le_rfl (by norm_num)
  have h0 := hc 0 0
  have h1 := hc 1 0
  have hd := fun x y => (C95_sie (k := 2) (by norm_num) 0 0 1 0 1 5e-7 x y).1
  simp only [mul_zero, mul_one] at h0 h1 hd
  simp only [siePotential] at h0 h1
  have hd0 := hd 0 0
  have hd1 := hd 1 0
  simp only [mul_zero, mul_one] at hd0 hd1
  rw [hd0] at h0
  rw [hd1] at h1
  simp only [derotate_scale] at h0 h1
  generalize derotate (sieDeflection 0 0 1 0 1 5e-7 0 0).1 _ _ = a at h0
  generalize derotate (sieDeflection 0 0 1 0 1 5e-7 1 0).1 _ _ = b at h1
  simp only [translateRotate, cos_zero, sin_zero] at h0 h1
  norm_num at h0 h1
  have e1 : √(1000000000000 : ℝ) = 1000000 := by
    rw [show (1000000000000 : ℝ) = 1000000 ^ 2 by norm_num, sqrt_sq (by norm_num)]
  have e2 : √(4000000000000 : ℝ) = 2000000 := by
    rw [show (4000000000000 : ℝ) = 2000000 ^ 2 by norm_num, sqrt_sq (by norm_num)]
  have hW : (1000 : ℝ) ≤ √4000000000001 := Real.le_sqrt_of_sq_le (by norm_num)
  generalize √(4000000000001 : ℝ) = W at *
  rw [e1, e2, sqrt_sq (by norm_num), sqrt_sq (by norm_num)] at h0
  rw [e1, e2, sqrt_sq (by positivity), sqrt_sq (by positivity)] at h1
  have h2 : log ((W / 1000000 + 1 / 1000000) * (2000000⁻¹ + 1 / 1000000))
      = log ((W / 2000000 + 1 / 1000000) * (1000000⁻¹ + 1 / 1000000)) := by
    rw [log_mul (by positivity) (by positivity), log_mul (by positivity) (by positivity)]
    linarith
  have h3 := log_injOn_pos (Set.mem_Ioi.2 (by positivity)) (Set.mem_Ioi.2 (by positivity)) h2
  linarith

/-! ### Examples -/

/-- An ellipsoid with a core given in arcseconds and in milliarcseconds. -/
example : sieDeflection 100 (-200) 0.8 0.3 1500 10 900 400
    = (1000 * (sieDeflection 0.1 (-0.2) 0.8 0.3 1.5 0.01 0.9 0.4).1,
       1000 * (sieDeflection 0.1 (-0.2) 0.8 0.3 1.5 0.01 0.9 0.4).2) := by
  have h := (C95_sie (k := 1000) (by norm_num) 0.1 (-0.2) 0.8 0.3 1.5 0.01 0.9 0.4).1
  norm_num at h ⊢
  exact h

/-- An SIS with shear, in another unit: the plane is rescaled, so its delays are multiplied by four. -/
example (e : MPEnv ℝ) (p p' : ℝ × ℝ) :
    let l := singlePlane [⟨sisDeflection 0 0 1 0, sisConvergence 0 0 1 0, sisPotential 0 0 1 0⟩,
      ⟨shearDeflection 0 0 0.1 0, shearConvergence, shearPotential 0 0 0.1 0⟩]
    let l' := singlePlane [⟨sisDeflection 0 0 2 0, sisConvergence 0 0 2 0, sisPotential 0 0 2 0⟩,
      ⟨shearDeflection 0 0 0.1 0, shearConvergence, shearPotential 0 0 0.1 0⟩]
    (onlyLens 0.5 l').timeDelay e 1 true true (2 * p.1) (2 * p.2) - (onlyLens 0.5 l').timeDelay e 1 true true (2 * p'.1) (2 * p'.2)
      = 4 * ((onlyLens 0.5 l).timeDelay e 1 true true p.1 p.2 - (onlyLens 0.5 l).timeDelay e 1 true true p'.1 p'.2) := by
  intro l l'
  obtain ⟨h1, -, h2, -⟩ := C95_rescaled (k := 2) (by norm_num) 0 0
  have h1' := h1 1 0
  have h2' := h2 0.1 0
  simp only [mul_zero, mul_one] at h1' h2'
  have := C95_delay (z := 0.5) (C95_plane [(_, _), (_, _)] (by
    intro m hm
    simp only [List.mem_cons, List.not_mem_nil, or_false] at hm
    rcases hm with rfl | rfl
    · exact h1'
    · exact h2')) e 1 true true p p'
  rw [show (2 : ℝ) ^ 2 = 4 by norm_num] at this
  exact this

end Caustics

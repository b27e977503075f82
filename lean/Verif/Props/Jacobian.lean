import Verif.Model.Jacobian
import Verif.Lemmas.Lens
import Verif.Lemmas.JacSymm
import Verif.Props.Multiplane
import Verif.Props.Grid
import Verif.Props.LensSimple

/-! C38 (Jacobian, shear, magnification), C52 (Fermat), C53 (thick lens divergence and curl). -/

namespace Caustics

/-! ### C38 -/

section
variable {K : Type*} [Field K]

/-- Shear and trace of `A = 1 - J`, for any deflection Jacobian `J`. -/
theorem C38_shear [CharZero K] (J : M22 K) :
    (lensEqJac J).a00 + (lensEqJac J).a11 = 2 - 2 * ((J.a00 + J.a11) / 2) ∧
    shearFromJac (lensEqJac J) = ((J.a00 - J.a11) / 2, J.a01) := by
  refine ⟨by simp only [lensEqJac]; ring, ?_⟩
  ext
  · simp only [shearFromJac, lensEqJac]; ring
  · simp only [shearFromJac, lensEqJac]; ring

/-- With `kappa` half the trace of `J` and `(gamma1, gamma2)` what `shear` returns, the determinant of
`A` is `(1-κ)² - γ₁² - γ₂²` exactly when the deflection has no rotation at that point, or `γ₂ = 0`. -/
theorem C38_determinant [CharZero K] (J : M22 K) :
    let A := lensEqJac J
    let kappa := (J.a00 + J.a11) / 2
    let g := shearFromJac A
    A.a00 * A.a11 - A.a01 * A.a10 = (1 - kappa) ^ 2 - g.1 ^ 2 - g.2 ^ 2 ↔ J.a01 = J.a10 ∨ g.2 = 0 := by
  simp only [(C38_shear J).2]
  have e : ∀ r : K, (lensEqJac J).a00 * (lensEqJac J).a11 - (lensEqJac J).a01 * (lensEqJac J).a10 =
      (1 - (J.a00 + J.a11) / 2) ^ 2 - ((J.a00 - J.a11) / 2) ^ 2 - J.a01 * J.a10 := by
    intro _; simp only [lensEqJac]; ring
  rw [e 0]
  constructor
  · intro h
    have : J.a01 * (J.a01 - J.a10) = 0 := by linear_combination h
    rcases mul_eq_zero.1 this with h | h
    · exact Or.inr h
    · exact Or.inl (sub_eq_zero.1 h)
  · rintro (h | h)
    · rw [← h]; ring
    · rw [h]; ring

/-- The choice of the method: unknown names and a missing pixelscale raise, nothing else does. -/
theorem C38_methods (method : String) (pixelscale : Option K) (J : M22 K) (fd : K → M22 K) :
    jacobianLensEquation method pixelscale J (fun h => some (fd h)) =
      match method, pixelscale with
      | "autograd", _ => .ok (lensEqJac J)
      | "finitediff", some h => .ok (lensEqJac (fd h))
      | _, _ => .error .valueError := by
  unfold jacobianLensEquation
  by_cases h1 : method = "autograd"
  · subst h1; rfl
  · by_cases h2 : method = "finitediff"
    · subst h2
      cases pixelscale <;> rfl
    · rw [if_neg h1, if_neg h2]
      split <;> simp_all

theorem gradient1_affine [CharZero K] {f : ℕ → K} {n : ℕ} (hn : 2 ≤ n) {c d h : K} (hh : h ≠ 0)
    (hf : ∀ i, i < n → f i = c + d * (i * h)) {i : ℕ} (hi : i < n) : gradient1 f n h i = d := by
  unfold gradient1
  split
  · rw [hf 1 (by omega), hf 0 (by omega), div_eq_iff hh]; push_cast; ring
  · split
    · rw [hf (n - 1) (by omega), hf (n - 2) (by omega), div_eq_iff hh, Nat.cast_sub (by omega),
        Nat.cast_sub (by omega)]
      push_cast; ring
    · obtain ⟨k, rfl⟩ : ∃ k, i = k + 1 := ⟨i - 1, by omega⟩
      rw [hf (k + 1 + 1) (by omega), show k + 1 - 1 = k from rfl, hf k (by omega),
        div_eq_iff (mul_ne_zero two_ne_zero hh)]
      push_cast; ring

/-- Entry `(i, j)` of an array given as a list of rows. -/
def entry (A : List (List K)) (i j : ℕ) : K := (A[i]?.bind (·[j]?)).getD 0

/-- The finite difference Jacobian of an affine deflection field on a pixel grid is exact in every
pixel, edges and corners included, with rows and columns of the array meaning `y` and `x`. -/
theorem C38_finitediff_affine [CharZero K] (ps : K) (hps : ps ≠ 0) (nx ny : ℕ) (hnx : 2 ≤ nx) (hny : 2 ≤ ny)
    (J : M22 K) (c1 c2 : K) (i j : ℕ) (hi : i < ny) (hj : j < nx) :
    let X := (meshgrid ps nx (some ny)).1
    let Y := (meshgrid ps nx (some ny)).2
    jacFiniteDiff (fun i j => J.a00 * entry X i j + J.a01 * entry Y i j + c1)
      (fun i j => J.a10 * entry X i j + J.a11 * entry Y i j + c2) ny nx ps i j = some J := by
  intro X Y
  obtain ⟨-, -, -, -, hE⟩ := C06_entries ps nx (some ny)
  have hX : ∀ i j, i < ny → j < nx → entry X i j = ((j : K) - ((nx : K) - 1) / 2) * ps := by
    intro i j hi hj
    unfold entry
    rw [(hE i j hi hj).1]; rfl
  have hY : ∀ i j, i < ny → j < nx → entry Y i j = ((i : K) - ((ny : K) - 1) / 2) * ps := by
    intro i j hi hj
    unfold entry
    rw [(hE i j hi hj).2]; rfl
  unfold jacFiniteDiff gradient2
  rw [if_neg (by omega), if_neg (by omega)]
  refine congrArg some ?_
  ext
  · dsimp only
    refine gradient1_affine hnx hps (c := J.a00 * (-((nx : K) - 1) / 2 * ps) + J.a01 * entry Y i j + c1) ?_ hj
    intro k hk
    beta_reduce
    rw [hX i k hi hk, hY i k hi hk, hY i j hi hj]; ring
  · dsimp only
    refine gradient1_affine hny hps (c := J.a00 * entry X i j + J.a01 * (-((ny : K) - 1) / 2 * ps) + c1) ?_ hi
    intro k hk
    beta_reduce
    rw [hX k j hk hj, hY k j hk hj, hX i j hi hj]; ring
  · dsimp only
    refine gradient1_affine hnx hps (c := J.a10 * (-((nx : K) - 1) / 2 * ps) + J.a11 * entry Y i j + c2) ?_ hj
    intro k hk
    beta_reduce
    rw [hX i k hi hk, hY i k hi hk, hY i j hi hj]; ring
  · dsimp only
    refine gradient1_affine hny hps (c := J.a10 * entry X i j + J.a11 * (-((ny : K) - 1) / 2 * ps) + c2) ?_ hi
    intro k hk
    beta_reduce
    rw [hX k j hk hj, hY k j hk hj, hX i j hi hj]; ring

/-- For a quadratic profile the interior is exact and the first and last sample are off by exactly half
a pixel's change of slope, so edge values of the finite difference Jacobian are only first order. -/
theorem C38_finitediff_quadratic [CharZero K] {n : ℕ} (hn : 2 ≤ n) {c d q h : K} (hh : h ≠ 0) {i : ℕ}
    (hi : i < n) :
    gradient1 (fun k : ℕ => c + d * (k * h) + q * ((k : K) * h) ^ 2) n h i =
      (d + 2 * q * (i * h)) + (if i = 0 then q * h else if i = n - 1 then -(q * h) else 0) := by
  unfold gradient1
  split
  · rename_i h0
    subst h0
    rw [div_eq_iff hh]; push_cast; ring
  · split
    · rename_i h1
      obtain ⟨m, rfl⟩ : ∃ m, n = m + 2 := ⟨n - 2, by omega⟩
      rw [div_eq_iff hh, h1]
      simp only [show m + 2 - 1 = m + 1 from rfl, show m + 2 - 2 = m from rfl]
      push_cast; ring
    · obtain ⟨k, rfl⟩ : ∃ k, i = k + 1 := ⟨i - 1, by omega⟩
      rw [show k + 1 - 1 = k from rfl, div_eq_iff (mul_ne_zero two_ne_zero hh)]
      push_cast; ring

end

/-- Magnification of a thin lens whose deflection has Jacobian `J` at the point: the Jacobian of the
lens map is `1 - J`, and its inverse determinant is `1/|(1-κ)² - γ₁² - γ₂²|` when the deflection is
curl-free there. -/
theorem C38_magnification {v : ℝ → ℝ → ℝ × ℝ} {J : M22 ℝ} {x y : ℝ}
    (hJ : HasJac v J.a00 J.a01 J.a10 J.a11 x y) (hsym : J.a01 = J.a10) {A : M22 ℝ}
    (hA : HasJac (fun x y => (x - (v x y).1, y - (v x y).2)) A.a00 A.a01 A.a10 A.a11 x y) :
    A = lensEqJac J ∧
    pixelMagnification A = 1 / |(1 - (J.a00 + J.a11) / 2) ^ 2 - ((shearFromJac A).1 ^ 2 + (shearFromJac A).2 ^ 2)| := by
  have h1 := (HasGrad.fst x y).sub hJ.1
  have h2 := (HasGrad.snd x y).sub hJ.2
  have e1 := hA.1.unique h1
  have e2 := hA.2.unique h2
  have hA' : A = lensEqJac J := by
    ext
    · exact e1.1
    · exact e1.2
    · exact e2.1
    · exact e2.2
  refine ⟨hA', ?_⟩
  have := (C38_determinant J).2 (Or.inl hsym)
  rw [hA', pixelMagnification, this, sub_sub]

/-- The singular isothermal sphere: magnification `1/|1 - Rein/r|`. -/
theorem C38_magnification_sis {Rein x y : ℝ} (h : (x, y) ≠ ((0 : ℝ), (0 : ℝ))) {A : M22 ℝ}
    (hA : HasJac (fun x y => (x - (sisDeflection 0 0 Rein 0 x y).1, y - (sisDeflection 0 0 Rein 0 x y).2))
      A.a00 A.a01 A.a10 A.a11 x y) :
    pixelMagnification A = 1 / |1 - Rein / √(x ^ 2 + y ^ 2)| := by
  have h' : x ≠ 0 ∨ y ≠ 0 := by
    by_contra hc
    push Not at hc
    exact h (by rw [hc.1, hc.2])
  have hR := radius_pos h'
  have hsq := radius_sq x y
  have hj := hasJac_radial h' (hasDerivAt_const (√(x ^ 2 + y ^ 2)) Rein)
  have e : sisDeflection 0 0 Rein 0 = fun x y =>
      (Rein * x / √(x ^ 2 + y ^ 2), Rein * y / √(x ^ 2 + y ^ 2)) := by
    funext x y; simp [sisDeflection, translateRotate]
  rw [e] at hA
  obtain ⟨hA', -⟩ := C38_magnification (J := ⟨_, _, _, _⟩) hj rfl hA
  rw [hA', pixelMagnification]
  congr 2
  simp only [lensEqJac]
  generalize √(x ^ 2 + y ^ 2) = R at *
  field_simp
  linear_combination (R ^ 2 * Rein ^ 2 - R ^ 3 * Rein) * hsq


/-- A non-symmetric affine field on a 3 by 2 grid, at a corner; a field of one row raises. -/
example : jacFiniteDiff (K := ℚ) (fun i j => 2 * j + 4 * i) (fun i j => 6 * j + 8 * i + 1) 3 2 2 2 1
      = some ⟨1, 2, 3, 4⟩ ∧
    jacFiniteDiff (K := ℚ) (fun i j => 2 * j + 4 * i) (fun i j => 6 * j + 8 * i + 1) 1 2 2 0 1 = none := by
  constructor <;> decide +kernel

/-- With rotation the determinant is not given by convergence and shear. -/
example : let J : M22 ℚ := ⟨1 / 2, 1 / 4, 1 / 8, 1 / 6⟩
    (lensEqJac J).a00 * (lensEqJac J).a11 - (lensEqJac J).a01 * (lensEqJac J).a10 ≠
      (1 - (J.a00 + J.a11) / 2) ^ 2 - (shearFromJac (lensEqJac J)).1 ^ 2 - (shearFromJac (lensEqJac J)).2 ^ 2 ∧
    pixelMagnification (lensEqJac J) = 96 / 37 := by
  constructor <;> decide +kernel

/-! ### C52 -/

/-- The time delay with both terms: the distance factor times half the squared displacement between
image and source minus the potential; each switch selects one term. -/
theorem C52_value {K : Type} [Field K] [LinearOrder K] (e : MPEnv K) (zs : K) (l : ThinLensFn K) (x y : K) :
    let F := (1 + l.z) / e.cMpcS * (e.angDist l.z * e.angDist zs / e.angDist12 l.z zs)
      * e.arcsecToRad ^ 2 / e.daysToSeconds
    let b := l.raytrace x y
    l.timeDelay e zs true true x y = F * (((x - b.1) ^ 2 + (y - b.2) ^ 2) / 2 - l.psi x y) ∧
    l.timeDelay e zs true false x y = F * (-l.psi x y) ∧
    l.timeDelay e zs false true x y = F * (((x - b.1) ^ 2 + (y - b.2) ^ 2) / 2) ∧
    l.timeDelay e zs false false x y = 0 ∧
    l.timeDelay e zs true true x y = l.timeDelay e zs true false x y + l.timeDelay e zs false true x y := by
  simp only [ThinLensFn.timeDelay, ThinLensFn.raytrace, MPEnv.arcsec2ToDays, if_true, Bool.false_eq_true,
    if_false]
  refine ⟨?_, ?_, ?_, ?_, ?_⟩ <;> ring

/-- The arrival time of a hypothetical ray through `(x, y)` from a source at `(bx, bys)`; at an actual
image it is what `time_delay` returns. -/
noncomputable def arrivalTime (F : ℝ) (psi : ℝ → ℝ → ℝ) (bx bys x y : ℝ) : ℝ :=
  F * (((x - bx) ^ 2 + (y - bys) ^ 2) / 2 - psi x y)

theorem C52_fermat (e : MPEnv ℝ) (zs : ℝ) (l : ThinLensFn ℝ) (x y bx bys : ℝ)
    (hpsi : HasGrad l.psi (l.reduced x y).1 (l.reduced x y).2 x y)
    (hz : 1 + l.z ≠ 0) (hc : e.cMpcS ≠ 0) (hr : e.radToArcsec ≠ 0) (hd : e.daysToSeconds ≠ 0)
    (h1 : e.angDist l.z ≠ 0) (h2 : e.angDist zs ≠ 0) (h12 : e.angDist12 l.z zs ≠ 0) :
    let F := (1 + l.z) / e.cMpcS * (e.angDist l.z * e.angDist zs / e.angDist12 l.z zs)
      * e.arcsecToRad ^ 2 / e.daysToSeconds
    (HasGrad (arrivalTime F l.psi bx bys) 0 0 x y ↔ l.raytrace x y = (bx, bys)) ∧
    (l.raytrace x y = (bx, bys) → l.timeDelay e zs true true x y = arrivalTime F l.psi bx bys x y) := by
  intro F
  have hF : F ≠ 0 := by
    have : e.arcsecToRad ≠ 0 := by unfold MPEnv.arcsecToRad; exact one_div_ne_zero hr
    positivity
  have hg : HasGrad (arrivalTime F l.psi bx bys) (F * ((x - bx) - (l.reduced x y).1))
      (F * ((y - bys) - (l.reduced x y).2)) x y := by
    have hx := (HasGrad.fst x y).sub (HasGrad.const bx x y)
    have hy := (HasGrad.snd x y).sub (HasGrad.const bys x y)
    have := ((((hx.mul hx).add (hy.mul hy)).const_mul (1 / 2)).sub hpsi).const_mul F
    refine (this.congr_near (Filter.Eventually.of_forall fun p => ?_)).congr ?_ ?_
    · unfold arrivalTime; ring
    · ring
    · ring
  constructor
  · constructor
    · intro h0
      obtain ⟨a, b⟩ := hg.unique h0
      have a' := (mul_eq_zero.1 a).resolve_left hF
      have b' := (mul_eq_zero.1 b).resolve_left hF
      unfold ThinLensFn.raytrace
      ext
      · change x - _ = bx; linarith
      · change y - _ = bys; linarith
    · intro h
      unfold ThinLensFn.raytrace at h
      have ha : x - (l.reduced x y).1 = bx := congrArg Prod.fst h
      have hb : y - (l.reduced x y).2 = bys := congrArg Prod.snd h
      have e1 : F * ((x - bx) - (l.reduced x y).1) = 0 := by rw [← ha]; ring
      have e2 : F * ((y - bys) - (l.reduced x y).2) = 0 := by rw [← hb]; ring
      rwa [e1, e2] at hg
  · intro h
    rw [(C52_value e zs l x y).1, h, arrivalTime]

/-- A quadratic potential with distances `z`: image of `(1, 0)` at `(2, 0)`, with its delay. -/
example : let e : MPEnv ℚ := ⟨fun z => z, 1, 1, 1⟩
    let l : ThinLensFn ℚ := ⟨1, fun x y => (x / 2, y / 2), fun x y => (x ^ 2 + y ^ 2) / 4⟩
    l.raytrace 2 0 = (1, 0) ∧ l.timeDelay e 3 true true 2 0 = -(3 / 4) := by
  constructor <;> decide +kernel

/-! ### C53 -/

/-- `effective_reduced_deflection_angle` plus the traced position is the image position, and it is
defined whenever the trace is. -/
theorem C53_effective {K : Type} [Field K] [LinearOrder K] (e : MPEnv K) (zs : K) (ls : List (MPlane K)) (x y : K) :
    (mpEffectiveDeflection e zs ls x y).map (fun a => (x - a.1, y - a.2)) = mpRaytrace e zs ls x y := by
  unfold mpEffectiveDeflection
  cases mpRaytrace e zs ls x y <;> simp

/-- One plane: the effective deflection is the lens' own deflection. -/
theorem C53_one_plane {K : Type} [Field K] [LinearOrder K] (e : MPEnv K) (zs : K) (hr : e.radToArcsec ≠ 0)
    (l : ThinLensFn K) (hl : e.dist l.z ≠ 0) (hs : e.dist zs ≠ 0) (hls : e.dist zs ≠ e.dist l.z)
    (hzs : 1 + zs ≠ 0) (x y : K) :
    mpEffectiveDeflection e zs [l.plane e zs] x y = some (l.reduced x y) := by
  unfold mpEffectiveDeflection
  rw [C18_one_plane e zs hr l hl hs hls hzs]
  simp [ThinLensFn.raytrace]

/-- One plane, with the deflection the gradient of the potential: whatever the Jacobian of the effective
deflection is, its curl vanishes and its half divergence is that of the deflection, the convergence. -/
theorem C53_div_curl (e : MPEnv ℝ) (zs : ℝ) (hr : e.radToArcsec ≠ 0)
    (l : ThinLensFn ℝ) (hl : e.dist l.z ≠ 0) (hs : e.dist zs ≠ 0) (hls : e.dist zs ≠ e.dist l.z)
    (hzs : 1 + zs ≠ 0) (x y : ℝ)
    (hpsi : ∀ᶠ p : ℝ × ℝ in nhds (x, y), HasGrad l.psi (l.reduced p.1 p.2).1 (l.reduced p.1 p.2).2 p.1 p.2)
    (J : M22 ℝ)
    (hJ : HasJac (fun x y => (mpEffectiveDeflection e zs [l.plane e zs] x y).getD 0)
      J.a00 J.a01 J.a10 J.a11 x y) :
    effectiveCurl J = 0 ∧ HasKappa l.reduced (effectiveDiv J) x y := by
  simp only [C53_one_plane e zs hr l hl hs hls hzs, Option.getD_some] at hJ
  have hJ' : HasJac l.reduced J.a00 J.a01 J.a10 J.a11 x y := hJ
  have hs := jac_symm hpsi hJ'
  refine ⟨by rw [effectiveCurl, hs]; ring, J.a00, J.a01, J.a11, ?_, by rw [effectiveDiv]; ring⟩
  rwa [← hs] at hJ'

/-- Two shearing planes along different axes. -/
def shearPlanes (K : Type) [Field K] : List (MPlane K) :=
  [⟨1, fun x y => (x, -y), fun x y => (x ^ 2 - y ^ 2) / 2⟩, ⟨2, fun x y => (y, x), fun x y => x * y⟩]

/-- Two planes, each with a gradient deflection, whose effective deflection rotates: its Jacobian has
curl `-1/6` everywhere. -/
theorem C53_two_planes_curl (x y : ℝ) :
    (∀ m ∈ shearPlanes ℝ, HasGrad m.psi (m.alpha x y).1 (m.alpha x y).2 x y) ∧
    ∃ J : M22 ℝ, HasJac (fun x y => (mpEffectiveDeflection ⟨fun z => z, 1, 1, 1⟩ 3 (shearPlanes ℝ) x y).getD 0)
      J.a00 J.a01 J.a10 J.a11 x y ∧ effectiveCurl J ≠ 0 := by
  have hx := HasGrad.fst x y
  have hy := HasGrad.snd x y
  constructor
  · intro m hm
    simp only [shearPlanes, List.mem_cons, List.not_mem_nil, or_false] at hm
    rcases hm with rfl | rfl
    · refine ((((hx.mul hx).sub (hy.mul hy)).const_mul (1 / 2)).congr_near
        (Filter.Eventually.of_forall fun p => ?_)).congr ?_ ?_
      · ring
      · simp; ring
      · simp; ring
    · refine (hx.mul hy).congr ?_ ?_ <;> simp
  · have hE : ∀ x y : ℝ, mpEffectiveDeflection ⟨fun z => z, 1, 1, 1⟩ 3 (shearPlanes ℝ) x y =
        some (2 / 3 * x + 1 / 2 * y, -(2 / 3) * y + 1 / 6 * x) := by
      intro x y
      unfold mpEffectiveDeflection mpRaytrace
      rw [shearPlanes, mpHelper_sorted _ _ _ _ _ _ (by simp [SortedByZ]) x y]
      simp only [mpChain, mpBody, MPEnv.dist12, MPEnv.arcsecToRad, Option.map_some, Option.some.injEq, Prod.mk.injEq]
      constructor <;> norm_num <;> ring
    refine ⟨⟨2 / 3, 1 / 2, 1 / 6, -(2 / 3)⟩, ⟨?_, ?_⟩, ?_⟩
    · simp only [hE, Option.getD_some]
      refine ((hx.const_mul (2 / 3)).add (hy.const_mul (1 / 2))).congr ?_ ?_ <;> simp
    · simp only [hE, Option.getD_some]
      refine ((hy.const_mul (-(2 / 3))).add (hx.const_mul (1 / 6))).congr ?_ ?_ <;> simp
    · norm_num [effectiveCurl]

example : mpEffectiveDeflection (K := ℚ) ⟨fun z => z, 1, 1, 1⟩ 3 (shearPlanes ℚ) 5 7
    = some (2 / 3 * 5 + 1 / 2 * 7, -(2 / 3) * 7 + 1 / 6 * 5) := by decide +kernel

end Caustics

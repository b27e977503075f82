import Verif.Props.QuadLens
import Verif.Props.Images
import Verif.Lemmas.QuadSum
import Mathlib.Data.Real.Sign

/-!
C134: the magnifications of four images, counted with their parities, add up to a constant.
-/

namespace Caustics

open ComplexConjugate FieldLens

/-- Sum of the magnifications of the images in `T`, each with the sign of its parity, where `J` holds the Jacobians. -/
noncomputable def signedMagnification (T : Finset (ℝ × ℝ)) (J : ℝ × ℝ → M22 ℝ) : ℝ :=
  ∑ p ∈ T, Real.sign ((J p).a00 * (J p).a11 - (J p).a01 * (J p).a10) * pixelMagnification (J p)

theorem sign_mul_magnification (M : M22 ℝ) :
    Real.sign (M.a00 * M.a11 - M.a01 * M.a10) * pixelMagnification M = (M.a00 * M.a11 - M.a01 * M.a10)⁻¹ := by
  rw [pixelMagnification]
  rcases lt_trichotomy (M.a00 * M.a11 - M.a01 * M.a10) 0 with h | h | h
  · rw [Real.sign_of_neg h, abs_of_neg h, one_div, neg_one_mul, inv_neg, neg_neg]
  · rw [h]
    simp
  · rw [Real.sign_of_pos h, abs_of_pos h, one_mul, one_div]

/-- From the axes of the shear to any direction. -/
theorem shear_axisImage {m : ℕ} {a R s : ℝ} {g ζ ρ w : ℂ} (h1 : ρ * conj ρ = 1) (h2 : g * conj ρ = ‖g‖ * ρ) (hs : 0 < s)
    (hr : s ^ m * (w.re ^ 2 + w.im ^ 2) = R ^ 2) (he : (a : ℂ) * w - g * conj w - (s : ℂ) * w = ζ) :
    AxisImage m (a - ‖g‖) (a + ‖g‖) R (conj ρ * ζ).re (conj ρ * ζ).im s ((conj ρ * w).re, (conj ρ * w).im) := by
  set q := conj ρ * w with hq
  have hw : w = ρ * q := by rw [hq, ← mul_assoc, h1, one_mul]
  have hcw : conj w = conj ρ * conj q := by rw [hw, map_mul]
  have hn : q.re ^ 2 + q.im ^ 2 = w.re ^ 2 + w.im ^ 2 := by
    have e : ∀ t : ℂ, t.re ^ 2 + t.im ^ 2 = Complex.normSq t := fun t => by rw [Complex.normSq_apply]; ring
    have hρ : Complex.normSq ρ = 1 := by
      have h3 := Complex.mul_conj ρ
      rw [h1] at h3
      exact_mod_cast h3.symm
    rw [e, e, hq, map_mul, Complex.normSq_conj, hρ, one_mul]
  have key : (a : ℂ) * q - ‖g‖ * conj q - (s : ℂ) * q = conj ρ * ζ := by
    clear_value q
    rw [← he, hcw, hw]
    linear_combination -((a : ℂ) * q - (s : ℂ) * q) * h1 + conj ρ * conj q * h2 + (‖g‖ : ℂ) * conj q * h1
  refine ⟨hs, by simp only; rw [hn, hr], ?_, ?_⟩
  · simp only
    rw [← key]
    simp only [Complex.sub_re, Complex.re_ofReal_mul, Complex.conj_re]
    ring
  · simp only
    rw [← key]
    simp only [Complex.sub_im, Complex.im_ofReal_mul, Complex.conj_im]
    ring

theorem shear_axisDet {m : ℕ} {a s : ℝ} {g ρ w : ℂ} (h1 : ρ * conj ρ = 1) (h2 : g * conj ρ = ‖g‖ * ρ) :
    axisDet m (a - ‖g‖) (a + ‖g‖) s ((conj ρ * w).re, (conj ρ * w).im) =
      (a - g.re - s + 2 / m * (s / (w.re ^ 2 + w.im ^ 2)) * w.re ^ 2) *
        (a + g.re - s + 2 / m * (s / (w.re ^ 2 + w.im ^ 2)) * w.im ^ 2) -
      (-g.im + 2 / m * (s / (w.re ^ 2 + w.im ^ 2)) * (w.re * w.im)) ^ 2 := by
  have hρ : ρ.re ^ 2 + ρ.im ^ 2 = 1 := by
    have := congrArg Complex.re h1
    simp only [Complex.mul_re, Complex.conj_re, Complex.conj_im, Complex.one_re] at this
    linarith
  have hg : g = ‖g‖ * ρ ^ 2 := by
    linear_combination ρ * h2 - g * h1
  have g1 : g.re = ‖g‖ * (ρ.re ^ 2 - ρ.im ^ 2) := by
    conv_lhs => rw [hg]
    rw [Complex.re_ofReal_mul, sq, Complex.mul_re]
    ring
  have g2 : g.im = ‖g‖ * (2 * ρ.re * ρ.im) := by
    conv_lhs => rw [hg]
    rw [Complex.im_ofReal_mul, sq, Complex.mul_im]
    ring
  have e : (conj ρ * w).re ^ 2 + (conj ρ * w).im ^ 2 = w.re ^ 2 + w.im ^ 2 := by
    simp only [Complex.mul_re, Complex.mul_im, Complex.conj_re, Complex.conj_im]
    linear_combination (w.re ^ 2 + w.im ^ 2) * hρ
  simp only [axisDet]
  rw [e, g1, g2]
  simp only [Complex.mul_re, Complex.mul_im, Complex.conj_re, Complex.conj_im]
  generalize 2 / (m : ℝ) * (s / (w.re ^ 2 + w.im ^ 2)) = k
  generalize ‖g‖ = G
  have hρ2 : (ρ.re ^ 2 - ρ.im ^ 2) ^ 2 + (2 * ρ.re * ρ.im) ^ 2 = 1 := by
    linear_combination (ρ.re ^ 2 + ρ.im ^ 2 + 1) * hρ
  linear_combination G ^ 2 * hρ2 + k * (a - s) * (w.re ^ 2 + w.im ^ 2) * hρ

/-- The Jacobian of a lens with radial deflection `A`, in a uniform field. -/
theorem radial_jac {f : ℝ → ℝ → ℝ × ℝ} {A : ℝ → ℝ} {A' x0 y0 a : ℝ} {g K : ℂ}
    (hf : ∀ x y, (x, y) ≠ (x0, y0) → (a : ℂ) * ⟨x - x0, y - y0⟩ - g * conj (⟨x - x0, y - y0⟩ : ℂ) -
      ((A √((x - x0) ^ 2 + (y - y0) ^ 2) / √((x - x0) ^ 2 + (y - y0) ^ 2) : ℝ) : ℂ) * ⟨x - x0, y - y0⟩ =
        ⟨(f x y).1, (f x y).2⟩ + K) {p : ℝ × ℝ}
    (hA : HasDerivAt A A' √((p.1 - x0) ^ 2 + (p.2 - y0) ^ 2)) (hp : p ≠ (x0, y0)) :
    let r := √((p.1 - x0) ^ 2 + (p.2 - y0) ^ 2)
    let B := (A' - A r / r) / r ^ 2
    HasJac f (a - g.re - (A r / r + B * (p.1 - x0) ^ 2)) (-g.im - B * ((p.1 - x0) * (p.2 - y0)))
      (-g.im - B * ((p.1 - x0) * (p.2 - y0))) (a + g.re - (A r / r + B * (p.2 - y0) ^ 2)) p.1 p.2 := by
  intro r B
  have hj := hasJac_shift (x0 := x0) (y0 := y0) (hasJac_radial (sub_ne_zero_pair hp) hA)
  have hX := (HasGrad.fst p.1 p.2).sub (HasGrad.const x0 p.1 p.2)
  have hY := (HasGrad.snd p.1 p.2).sub (HasGrad.const y0 p.1 p.2)
  have k1 := ((((hX.const_mul (a - g.re)).sub (hY.const_mul g.im)).sub hj.1).sub (HasGrad.const K.re p.1 p.2))
  have k2 := ((((hY.const_mul (a + g.re)).sub (hX.const_mul g.im)).sub hj.2).sub (HasGrad.const K.im p.1 p.2))
  have hnear : ∀ᶠ q : ℝ × ℝ in nhds (p.1, p.2), q ≠ (x0, y0) := isOpen_ne.eventually_mem hp
  have u1 := k1.congr_near (v := fun x y => (f x y).1) (by
    filter_upwards [hnear] with q hq
    have h3 := congrArg Complex.re (hf q.1 q.2 hq)
    simp only [Complex.sub_re, Complex.add_re, Complex.mul_re, Complex.ofReal_re, Complex.ofReal_im, Complex.conj_re,
      Complex.conj_im] at h3
    linear_combination -h3)
  have u2 := k2.congr_near (v := fun x y => (f x y).2) (by
    filter_upwards [hnear] with q hq
    have h3 := congrArg Complex.im (hf q.1 q.2 hq)
    simp only [Complex.sub_im, Complex.add_im, Complex.mul_im, Complex.ofReal_re, Complex.ofReal_im, Complex.conj_re,
      Complex.conj_im] at h3
    linear_combination -h3)
  exact ⟨u1.congr (by ring) (by ring), u2.congr (by ring) (by ring)⟩

/-- A lens with radial deflection `A`, in a uniform field. -/
theorem radial_sum {m : ℕ} (hm : m = 1 ∨ m = 2) {f : ℝ → ℝ → ℝ × ℝ} {A A' : ℝ → ℝ} {x0 y0 a R : ℝ} {g K : ℂ} (hR : 0 < R)
    (hg : g ≠ 0) (ha : a ^ 2 ≠ ‖g‖ ^ 2)
    (hf : ∀ x y, (x, y) ≠ (x0, y0) → (a : ℂ) * ⟨x - x0, y - y0⟩ - g * conj (⟨x - x0, y - y0⟩ : ℂ) -
      ((A √((x - x0) ^ 2 + (y - y0) ^ 2) / √((x - x0) ^ 2 + (y - y0) ^ 2) : ℝ) : ℂ) * ⟨x - x0, y - y0⟩ =
        ⟨(f x y).1, (f x y).2⟩ + K)
    (hA : ∀ r, 0 < r → HasDerivAt A (A' r) r ∧ 0 < A r / r ∧ (A r / r) ^ m * r ^ 2 = R ^ 2 ∧
      A' r - A r / r = -(2 / m * (A r / r)))
    {b : ℝ × ℝ} {T : Finset (ℝ × ℝ)} (hT : T.card = 4) (hTf : ∀ p ∈ T, p ≠ (x0, y0) ∧ f p.1 p.2 = b)
    {J : ℝ × ℝ → M22 ℝ} (hJ : ∀ p ∈ T, HasJac f (J p).a00 (J p).a01 (J p).a10 (J p).a11 p.1 p.2) :
    (∀ p ∈ T, (J p).a00 * (J p).a11 - (J p).a01 * (J p).a10 ≠ 0) ∧
    signedMagnification T J = m / (a ^ 2 - ‖g‖ ^ 2) := by
  classical
  obtain ⟨ρ, h1, h2⟩ := shear_axes g
  have hG : 0 < ‖g‖ := norm_pos_iff.2 hg
  let toC : ℝ × ℝ → ℂ := fun p => ⟨p.1 - x0, p.2 - y0⟩
  let F : ℝ × ℝ → ℝ × ℝ := fun p => ((conj ρ * toC p).re, (conj ρ * toC p).im)
  let sv : ℝ × ℝ → ℝ := fun p => A √(p.1 ^ 2 + p.2 ^ 2) / √(p.1 ^ 2 + p.2 ^ 2)
  have hFinj : Function.Injective F := by
    intro p q h
    have h3 : conj ρ * toC p = conj ρ * toC q := Complex.ext (congrArg Prod.fst h) (congrArg Prod.snd h)
    have h4 := congrArg (ρ * ·) h3
    simp only [← mul_assoc, h1, one_mul] at h4
    exact sis_shift_injective x0 y0 h4
  have hρ : ρ.re ^ 2 + ρ.im ^ 2 = 1 := by
    have := congrArg Complex.re h1
    simp only [Complex.mul_re, Complex.conj_re, Complex.conj_im, Complex.one_re] at this
    linarith
  have hFr : ∀ p, (F p).1 ^ 2 + (F p).2 ^ 2 = (p.1 - x0) ^ 2 + (p.2 - y0) ^ 2 := by
    intro p
    simp only [F, toC, Complex.mul_re, Complex.mul_im, Complex.conj_re, Complex.conj_im]
    linear_combination ((p.1 - x0) ^ 2 + (p.2 - y0) ^ 2) * hρ
  have hsF : ∀ p, sv (F p) = A √((p.1 - x0) ^ 2 + (p.2 - y0) ^ 2) / √((p.1 - x0) ^ 2 + (p.2 - y0) ^ 2) := by
    intro p
    simp only [sv, hFr]
  have hrad : ∀ p ∈ T, 0 < √((p.1 - x0) ^ 2 + (p.2 - y0) ^ 2) := fun p hp =>
    radius_pos (sub_ne_zero_pair (hTf p hp).1)
  have hax : ∀ q ∈ T.image F, AxisImage m (a - ‖g‖) (a + ‖g‖) R (conj ρ * (⟨b.1, b.2⟩ + K)).re
      (conj ρ * (⟨b.1, b.2⟩ + K)).im (sv q) q := by
    intro q hq
    obtain ⟨p, hp, rfl⟩ := Finset.mem_image.1 hq
    have hr := hrad p hp
    obtain ⟨-, e1, e2, -⟩ := hA _ hr
    rw [hsF]
    refine shear_axisImage (w := toC p) h1 h2 e1 ?_ ?_
    · rw [Real.sq_sqrt (by positivity)] at e2
      exact e2
    · have := hf p.1 p.2 (hTf p hp).1
      rw [(hTf p hp).2] at this
      exact this
  have hcard : (T.image F).card = 4 := by rw [Finset.card_image_of_injective _ hFinj, hT]
  have hsum := quad_sum hm (by linarith) (fun h => ha (by linear_combination (a + ‖g‖) * h))
    (fun h => ha (by linear_combination (a - ‖g‖) * h)) hR hcard hax
  rw [Finset.sum_image hFinj.injOn] at hsum
  have hdet : ∀ p ∈ T, (J p).a00 * (J p).a11 - (J p).a01 * (J p).a10 =
      axisDet m (a - ‖g‖) (a + ‖g‖) (sv (F p)) (F p) := by
    intro p hp
    have hr := hrad p hp
    obtain ⟨e0, e1, e2, e3⟩ := hA _ hr
    have hk := radial_jac hf e0 (hTf p hp).1
    have u1 := (hJ p hp).1.unique hk.1
    have u2 := (hJ p hp).2.unique hk.2
    rw [hsF, show F p = ((conj ρ * toC p).re, (conj ρ * toC p).im) from rfl, shear_axisDet h1 h2, u1.1, u1.2, u2.1, u2.2,
      e3]
    have hsq := Real.sq_sqrt (show 0 ≤ (p.1 - x0) ^ 2 + (p.2 - y0) ^ 2 by positivity)
    simp only [toC]
    clear hk u1 u2
    generalize √((p.1 - x0) ^ 2 + (p.2 - y0) ^ 2) = r at *
    generalize A r = α at *
    rw [← hsq]
    ring
  refine ⟨fun p hp => ?_, ?_⟩
  · rw [hdet p hp]
    exact hsum.1 _ (Finset.mem_image_of_mem _ hp)
  · rw [signedMagnification, Finset.sum_congr rfl fun p hp => by rw [sign_mul_magnification, hdet p hp], hsum.2]
    congr 1
    ring

/-! ### Isothermal sphere -/

theorem sisFieldConst_split (x0 y0 : ℝ) (l : List FieldLens) (b : ℝ × ℝ) :
    sisFieldConst x0 y0 l b = ⟨b.1, b.2⟩ + sisFieldConst x0 y0 l 0 := by
  simp only [sisFieldConst, Prod.fst_zero, Prod.snd_zero]
  have : (⟨0, 0⟩ : ℂ) = 0 := rfl
  rw [this]
  ring

theorem norm_shift (x y : ℝ) : ‖(⟨x, y⟩ : ℂ)‖ = √(x ^ 2 + y ^ 2) := by
  rw [Complex.norm_def, Complex.normSq_apply]
  ring_nf

/-- Four images of a source behind an isothermal sphere with shear: none of them is on a critical curve, and the
magnifications, with parities, add up to `2 / ((1 - κ)² - γ²)`, wherever the source is and whatever the Einstein
radius. -/
theorem C134_sis (z x0 y0 R : ℝ) (hR : 0 < R) (pre post : List FieldLens) (h1 : Smooth pre) (h2 : Smooth post)
    (hg : ((pre ++ post).map gamma).sum ≠ 0)
    (hdet : (1 - ((pre ++ post).map kappa).sum) ^ 2 ≠
      ((pre ++ post).map gamma).sum.1 ^ 2 + ((pre ++ post).map gamma).sum.2 ^ 2) (b : ℝ × ℝ)
    (T : Finset (ℝ × ℝ)) (hT : T.card = 4) (hTb : (T : Set (ℝ × ℝ)) ⊆ sisFieldImages z x0 y0 R pre post b)
    {f : ℝ → ℝ → ℝ × ℝ} (hf : ∀ x y, (x, y) ≠ (x0, y0) → raytraceOpt
      (singlePlaneO z (pre.map (thin z) ++ sisThinO z x0 y0 R :: post.map (thin z))).reduced x y = some (f x y))
    {J : ℝ × ℝ → M22 ℝ} (hJ : ∀ p ∈ T, HasJac f (J p).a00 (J p).a01 (J p).a10 (J p).a11 p.1 p.2) :
    (∀ p ∈ T, (J p).a00 * (J p).a11 - (J p).a01 * (J p).a10 ≠ 0) ∧
    signedMagnification T J = 2 / ((1 - ((pre ++ post).map kappa).sum) ^ 2 -
      (((pre ++ post).map gamma).sum.1 ^ 2 + ((pre ++ post).map gamma).sum.2 ^ 2)) := by
  have hn : ‖(⟨(gammaSum (pre ++ post)).1, (gammaSum (pre ++ post)).2⟩ : ℂ)‖ ^ 2 =
      ((pre ++ post).map gamma).sum.1 ^ 2 + ((pre ++ post).map gamma).sum.2 ^ 2 := by
    rw [← Complex.normSq_eq_norm_sq, Complex.normSq_mk, ← sq, ← sq]
    rfl
  have h := radial_sum (m := 2) (.inr rfl) (A := fun _ => R) (A' := fun _ => 0) (x0 := x0) (y0 := y0) (f := f)
    (a := 1 - kappaSum (pre ++ post)) (g := ⟨(gammaSum (pre ++ post)).1, (gammaSum (pre ++ post)).2⟩)
    (K := sisFieldConst x0 y0 (pre ++ post) 0) hR (fun h => hg (mkC_injective (h.trans rfl))) (by rw [hn]; exact hdet)
    (by
      intro x y hxy
      obtain ⟨-, he⟩ := (sis_field_image h1 h2 (x, y) (f x y)).1 (hf x y hxy)
      rw [← sisFieldConst_split, ← he, norm_shift])
    (by
      intro r hr
      refine ⟨hasDerivAt_const r R, by positivity, ?_, ?_⟩
      · field_simp
      · norm_num)
    hT (b := b) (by
      intro p hp
      have hp' := hTb hp
      obtain ⟨h0, -⟩ := (sis_field_image h1 h2 p b).1 hp'
      have hne : p ≠ (x0, y0) := by
        rintro rfl
        exact h0 (by rw [sub_self, sub_self]; rfl)
      refine ⟨hne, ?_⟩
      have h3 := hf p.1 p.2 hne
      rw [sisFieldImages, Set.mem_ofPred_eq, h3] at hp'
      exact Option.some.inj hp') hJ
  refine ⟨h.1, ?_⟩
  rw [h.2, hn]
  norm_num [kappaSum]

/-- The hypotheses of `C134_sis` on `f` and `J` can be met: `raytrace` returns a position everywhere but at the centre,
and is differentiable there. -/
theorem C134_sis_regular (z x0 y0 R : ℝ) (pre post : List FieldLens) (h1 : Smooth pre) (h2 : Smooth post) :
    ∃ f : ℝ → ℝ → ℝ × ℝ, (∀ x y, (x, y) ≠ (x0, y0) → raytraceOpt
      (singlePlaneO z (pre.map (thin z) ++ sisThinO z x0 y0 R :: post.map (thin z))).reduced x y = some (f x y)) ∧
      ∃ J : ℝ × ℝ → M22 ℝ, ∀ p, p ≠ (x0, y0) → HasJac f (J p).a00 (J p).a01 (J p).a10 (J p).a11 p.1 p.2 := by
  let a : ℝ := 1 - kappaSum (pre ++ post)
  let g : ℂ := ⟨(gammaSum (pre ++ post)).1, (gammaSum (pre ++ post)).2⟩
  let v : ℝ → ℝ → ℂ := fun x y => (a : ℂ) * ⟨x - x0, y - y0⟩ - g * conj (⟨x - x0, y - y0⟩ : ℂ) -
    ((R / √((x - x0) ^ 2 + (y - y0) ^ 2) : ℝ) : ℂ) * ⟨x - x0, y - y0⟩ - sisFieldConst x0 y0 (pre ++ post) 0
  refine ⟨fun x y => ((v x y).re, (v x y).im), fun x y h => ?_, ?_⟩
  · refine (sis_field_image (z := z) (x0 := x0) (y0 := y0) (R := R) h1 h2 (x, y) ((v x y).re, (v x y).im)).2 ⟨?_, ?_⟩
    · intro h0
      refine h (Prod.ext ?_ ?_)
      · have := congrArg Complex.re h0
        simp only [Complex.zero_re] at this
        simp only
        linarith
      · have := congrArg Complex.im h0
        simp only [Complex.zero_im] at this
        simp only
        linarith
    · rw [sisFieldConst_split, norm_shift]
      change _ = v x y + _
      simp only [v, a, g]
      ring
  · have key : ∀ p : ℝ × ℝ, ∃ M : M22 ℝ, p ≠ (x0, y0) →
        HasJac (fun x y => ((v x y).re, (v x y).im)) M.a00 M.a01 M.a10 M.a11 p.1 p.2 := fun p =>
      ⟨⟨_, _, _, _⟩, fun hp => radial_jac (A := fun _ => R) (A' := 0) (a := a) (g := g) (x0 := x0) (y0 := y0)
        (K := sisFieldConst x0 y0 (pre ++ post) 0) (fun x y _ => by
          change _ = v x y + _
          simp only [v]
          ring) (hasDerivAt_const _ R) hp⟩
    choose J hJ using key
    exact ⟨J, hJ⟩

/-! ### Point mass -/

theorem point_field_image {z x0 y0 R : ℝ} {pre post : List FieldLens} (h1 : Smooth pre) (h2 : Smooth post)
    (p b : ℝ × ℝ) :
    p ∈ fieldImages z (pre ++ .point x0 y0 R :: post) b ↔ p ≠ (x0, y0) ∧
      ((1 - kappaSum (pre ++ post) : ℝ) : ℂ) * ⟨p.1 - x0, p.2 - y0⟩ -
        (⟨(gammaSum (pre ++ post)).1, (gammaSum (pre ++ post)).2⟩ : ℂ) * conj (⟨p.1 - x0, p.2 - y0⟩ : ℂ) -
        (R ^ 2 / ((p.1 - x0) ^ 2 + (p.2 - y0) ^ 2) : ℝ) * ⟨p.1 - x0, p.2 - y0⟩ = sisFieldConst x0 y0 (pre ++ post) b := by
  have hs : Smooth (pre ++ post) := fun m hm => (List.mem_append.1 hm).elim (h1 m) (h2 m)
  rw [fieldImages, Set.mem_ofPred_eq, field_image]
  have hpl : (∀ m ∈ pre ++ FieldLens.point x0 y0 R :: post, m.place ≠ some p) ↔ p ≠ (x0, y0) := by
    constructor
    · intro h hp
      exact h (.point x0 y0 R) (by simp) (by rw [hp]; rfl)
    · intro h m hm
      rcases List.mem_append.1 hm with hm | hm
      · rw [h1 m hm]
        simp
      · rcases List.mem_cons.1 hm with rfl | hm
        · simp only [place, ne_eq, Option.some.injEq]
          exact fun h' => h h'.symm
        · rw [h2 m hm]
          simp
  rw [hpl]
  refine and_congr_right fun hp => ?_
  have hpos : 0 < (p.1 - x0) ^ 2 + (p.2 - y0) ^ 2 := by
    rcases sub_ne_zero_pair hp with h | h <;> positivity
  set w : ℂ := ⟨p.1, p.2⟩ with hw
  have hwc : (⟨p.1 - x0, p.2 - y0⟩ : ℂ) = w - ⟨x0, y0⟩ := rfl
  have hcore : (FieldLens.point x0 y0 R).cdefl w =
      (R ^ 2 / ((p.1 - x0) ^ 2 + (p.2 - y0) ^ 2) : ℝ) * ⟨p.1 - x0, p.2 - y0⟩ := by
    simp only [cdefl]
    rw [← map_sub, ← hwc]
    have hc : conj (⟨p.1 - x0, p.2 - y0⟩ : ℂ) ≠ 0 := by
      rw [Ne, map_eq_zero]
      intro h
      have h3 := congrArg Complex.re h
      have h4 := congrArg Complex.im h
      simp only [Complex.zero_re, Complex.zero_im] at h3 h4
      rw [h3, h4] at hpos
      norm_num at hpos
    rw [div_eq_iff hc, mul_assoc, Complex.mul_conj, Complex.normSq_mk, ← sq, ← sq, ← Complex.ofReal_mul,
      div_mul_cancel₀ _ hpos.ne']
  have hsum : ((pre ++ FieldLens.point x0 y0 R :: post).map fun m => m.cdefl w).sum =
      ((pre ++ post).map fun m => m.cdefl w).sum + (FieldLens.point x0 y0 R).cdefl w := by
    simp only [List.map_append, List.map_cons, List.sum_append, List.sum_cons]
    ring
  rw [hsum, smooth_gather hs, hcore, sisFieldConst]
  generalize ((R ^ 2 / ((p.1 - x0) ^ 2 + (p.2 - y0) ^ 2) : ℝ) : ℂ) * ⟨p.1 - x0, p.2 - y0⟩ = S
  rw [hwc, map_sub]
  push_cast
  constructor <;> intro h <;> linear_combination h

/-- The same for a point mass: `1 / ((1 - κ)² - γ²)`. -/
theorem C134_point (z x0 y0 R : ℝ) (hR : 0 < R) (pre post : List FieldLens) (h1 : Smooth pre) (h2 : Smooth post)
    (hg : ((pre ++ post).map gamma).sum ≠ 0)
    (hdet : (1 - ((pre ++ post).map kappa).sum) ^ 2 ≠
      ((pre ++ post).map gamma).sum.1 ^ 2 + ((pre ++ post).map gamma).sum.2 ^ 2) (b : ℝ × ℝ)
    (T : Finset (ℝ × ℝ)) (hT : T.card = 4)
    (hTb : (T : Set (ℝ × ℝ)) ⊆ fieldImages z (pre ++ .point x0 y0 R :: post) b)
    {f : ℝ → ℝ → ℝ × ℝ} (hf : ∀ x y, (x, y) ≠ (x0, y0) → raytraceOpt
      (singlePlaneO z ((pre ++ .point x0 y0 R :: post).map (thin z))).reduced x y = some (f x y))
    {J : ℝ × ℝ → M22 ℝ} (hJ : ∀ p ∈ T, HasJac f (J p).a00 (J p).a01 (J p).a10 (J p).a11 p.1 p.2) :
    (∀ p ∈ T, (J p).a00 * (J p).a11 - (J p).a01 * (J p).a10 ≠ 0) ∧
    signedMagnification T J = 1 / ((1 - ((pre ++ post).map kappa).sum) ^ 2 -
      (((pre ++ post).map gamma).sum.1 ^ 2 + ((pre ++ post).map gamma).sum.2 ^ 2)) := by
  have hn : ‖(⟨(gammaSum (pre ++ post)).1, (gammaSum (pre ++ post)).2⟩ : ℂ)‖ ^ 2 =
      ((pre ++ post).map gamma).sum.1 ^ 2 + ((pre ++ post).map gamma).sum.2 ^ 2 := by
    rw [← Complex.normSq_eq_norm_sq, Complex.normSq_mk, ← sq, ← sq]
    rfl
  have h := radial_sum (m := 1) (.inl rfl) (A := fun r => R ^ 2 / r) (A' := fun r => -(R ^ 2 / r ^ 2)) (x0 := x0)
    (y0 := y0) (f := f) (a := 1 - kappaSum (pre ++ post))
    (g := ⟨(gammaSum (pre ++ post)).1, (gammaSum (pre ++ post)).2⟩)
    (K := sisFieldConst x0 y0 (pre ++ post) 0) hR (fun h => hg (mkC_injective (h.trans rfl))) (by rw [hn]; exact hdet)
    (by
      intro x y hxy
      obtain ⟨-, he⟩ := (point_field_image h1 h2 (x, y) (f x y)).1 (hf x y hxy)
      rw [← sisFieldConst_split, ← he, div_div, ← sq, Real.sq_sqrt (by positivity)])
    (by
      intro r hr
      refine ⟨?_, by positivity, ?_, ?_⟩
      · refine ((hasDerivAt_const r (R ^ 2)).div (hasDerivAt_id r) hr.ne').congr_deriv ?_
        simp only [id]
        ring
      · field_simp
      · field_simp
        norm_num)
    hT (b := b) (by
      intro p hp
      have hp' := hTb hp
      have hne := ((point_field_image h1 h2 p b).1 hp').1
      refine ⟨hne, ?_⟩
      have h3 := hf p.1 p.2 hne
      rw [fieldImages, Set.mem_ofPred_eq, h3] at hp'
      exact Option.some.inj hp') hJ
  refine ⟨h.1, ?_⟩
  rw [h.2, hn]
  norm_num [kappaSum]

/-- A shear of one half: the four images of a source behind the centre add up to 8/3. -/
example : ∃ (f : ℝ → ℝ → ℝ × ℝ) (J : ℝ × ℝ → M22 ℝ) (T : Finset (ℝ × ℝ)), T.card = 4 ∧
    (∀ x y, (x, y) ≠ ((0, 0) : ℝ × ℝ) → raytraceOpt (singlePlaneO (1 / 2) [sisThinO (1 / 2) 0 0 1,
      thin (1 / 2) (.shear 0 0 (1 / 2) 0)]).reduced x y = some (f x y)) ∧
    (∀ p ∈ T, f p.1 p.2 = (0, 0) ∧ HasJac f (J p).a00 (J p).a01 (J p).a10 (J p).a11 p.1 p.2) ∧
    signedMagnification T J = 8 / 3 := by
  have s1 : Smooth [] := by simp [Smooth]
  have s2 : Smooth [FieldLens.shear 0 0 (1 / 2) 0] := by simp [Smooth, place]
  obtain ⟨f, hf, J, hJ⟩ := C134_sis_regular (1 / 2) 0 0 1 [] [.shear 0 0 (1 / 2) 0] s1 s2
  obtain ⟨h1, h2⟩ := C132_four_reached (1 / 2) 1 (1 / 2) one_pos (by norm_num) (by norm_num)
  have hfin : (sisFieldImages (1 / 2) 0 0 1 [] [.shear 0 0 (1 / 2) 0] (0, 0)).Finite := by
    rw [h1]
    exact Set.toFinite _
  have hsub : ∀ p ∈ hfin.toFinset, p ≠ (0, 0) ∧ f p.1 p.2 = (0, 0) := by
    intro p hp
    rw [Set.Finite.mem_toFinset] at hp
    have hne : p ≠ (0, 0) := by
      rintro rfl
      obtain ⟨h0, -⟩ := (sis_field_image s1 s2 (0, 0) (0, 0)).1 hp
      exact h0 (by rw [sub_self]; rfl)
    refine ⟨hne, ?_⟩
    rw [sisFieldImages, Set.mem_ofPred_eq, hf p.1 p.2 hne] at hp
    exact Option.some.inj hp
  have hcard : hfin.toFinset.card = 4 := by rw [← Set.ncard_eq_toFinset_card _ hfin, h2]
  refine ⟨f, J, hfin.toFinset, hcard, hf, fun p hp => ⟨(hsub p hp).2, hJ p (hsub p hp).1⟩, ?_⟩
  rw [(C134_sis (1 / 2) 0 0 1 one_pos [] [.shear 0 0 (1 / 2) 0] s1 s2 (by simp [gamma]) (by norm_num [gamma, kappa])
    (0, 0) hfin.toFinset hcard (by simp) hf fun p hp => hJ p (hsub p hp).1).2]
  norm_num [gamma, kappa]

end Caustics

import Verif.Props.Images
import Verif.Model.Plane
import Verif.Model.TNFWMass
import Verif.Model.EPL

/-!
C87: the mass-sheet degeneracy.  A lens made weaker by a factor and put into a `SinglePlane` with a
`MassSheet` that makes up for it sees the same images.
-/

open Real

namespace Caustics

/-- A mass sheet as a member of a plane. -/
noncomputable def sheetFn (x0 y0 kappa : ℝ) : LensFn ℝ where
  deflection := sheetDeflection x0 y0 kappa
  convergence := sheetConvergence kappa
  potential := sheetPotential x0 y0 kappa

/-- The single plane of a lens and a mass sheet, at redshift `z`. -/
noncomputable def withSheet (z x0 y0 kappa : ℝ) (l : LensFn ℝ) : ThinLensFn ℝ where
  z := z
  reduced := (singlePlane [l, sheetFn x0 y0 kappa]).deflection
  psi := (singlePlane [l, sheetFn x0 y0 kappa]).potential

/-- The lens on its own. -/
def onlyLens (z : ℝ) (l : LensFn ℝ) : ThinLensFn ℝ where
  z := z
  reduced := l.deflection
  psi := l.potential

/-- `l'` is the lens `l` with deflection, convergence and potential multiplied by `k`. -/
def Weaker (k : ℝ) (l l' : LensFn ℝ) : Prop :=
  ∀ x y, l'.deflection x y = (k * (l.deflection x y).1, k * (l.deflection x y).2) ∧
    l'.convergence x y = k * l.convergence x y ∧ l'.potential x y = k * l.potential x y

/-- Rays meet the source plane at the place they did before, contracted by the factor towards the centre
of the sheet; the convergence mixes with one. -/
theorem C87_raytrace {k x0 y0 z : ℝ} {l l' : LensFn ℝ} (h : Weaker k l l') (x y : ℝ) :
    let b := (onlyLens z l).raytrace x y
    (withSheet z x0 y0 (1 - k) l').raytrace x y = (x0 + k * (b.1 - x0), y0 + k * (b.2 - y0)) ∧
    (singlePlane [l', sheetFn x0 y0 (1 - k)]).convergence x y = k * l.convergence x y + (1 - k) := by
  intro b
  obtain ⟨h1, h2, -⟩ := h x y
  constructor
  · simp only [b, ThinLensFn.raytrace, withSheet, onlyLens, singlePlane, singlePlaneDeflection, List.foldl_cons,
      List.foldl_nil, h1, sheetFn, sheetDeflection, translateRotate, zero_add]
    ext <;> simp only <;> ring
  · simp only [singlePlane, singlePlaneConvergence, List.foldl_cons, List.foldl_nil, h2, sheetFn, sheetConvergence]
    ring

/-- So the images are the same ones: the positions that show the source at `b` show it with the sheet at
the contracted place. -/
theorem C87_images {k x0 y0 z : ℝ} (hk : k ≠ 0) {l l' : LensFn ℝ} (h : Weaker k l l') (b : ℝ × ℝ) (x y : ℝ) :
    (withSheet z x0 y0 (1 - k) l').raytrace x y = (x0 + k * (b.1 - x0), y0 + k * (b.2 - y0)) ↔
      (onlyLens z l).raytrace x y = b := by
  rw [(C87_raytrace (z := z) (x0 := x0) (y0 := y0) h x y).1, Prod.ext_iff, Prod.ext_iff]
  simp only [add_right_inj, mul_right_inj' hk, sub_left_inj]

/-- Their magnifications are all divided by the square of the factor. -/
theorem C87_magnification {k x0 y0 z : ℝ} (hk : k ≠ 0) {l l' : LensFn ℝ} (h : Weaker k l l') {x y : ℝ} {M M' : M22 ℝ}
    (hM : HasJac (onlyLens z l).raytrace M.a00 M.a01 M.a10 M.a11 x y)
    (hM' : HasJac (withSheet z x0 y0 (1 - k) l').raytrace M'.a00 M'.a01 M'.a10 M'.a11 x y) :
    pixelMagnification M' = pixelMagnification M / k ^ 2 := by
  have e : (withSheet z x0 y0 (1 - k) l').raytrace = fun x y =>
      (x0 + k * (((onlyLens z l).raytrace x y).1 - x0), y0 + k * (((onlyLens z l).raytrace x y).2 - y0)) := by
    funext x y
    exact (C87_raytrace (z := z) h x y).1
  rw [e] at hM'
  have h1 : HasGrad (fun x y => x0 + k * (((onlyLens z l).raytrace x y).1 - x0)) (k * M.a00) (k * M.a01) x y :=
    ((HasGrad.const x0 x y).add ((hM.1.sub (HasGrad.const x0 x y)).const_mul k)).congr (by ring) (by ring)
  have h2 : HasGrad (fun x y => y0 + k * (((onlyLens z l).raytrace x y).2 - y0)) (k * M.a10) (k * M.a11) x y :=
    ((HasGrad.const y0 x y).add ((hM.2.sub (HasGrad.const y0 x y)).const_mul k)).congr (by ring) (by ring)
  obtain ⟨e00, e01⟩ := hM'.1.unique h1
  obtain ⟨e10, e11⟩ := hM'.2.unique h2
  unfold pixelMagnification
  rw [e00, e01, e10, e11, show k * M.a00 * (k * M.a11) - k * M.a01 * (k * M.a10) = k ^ 2 * (M.a00 * M.a11 - M.a01 * M.a10) by ring,
    abs_mul, abs_of_nonneg (sq_nonneg k), div_div, mul_comm]

/-- The delays between images of one source are all multiplied by the factor. -/
theorem C87_delay {k x0 y0 z : ℝ} {l l' : LensFn ℝ} (h : Weaker k l l') (e : MPEnv ℝ) (zs : ℝ) {p p' : ℝ × ℝ}
    (hp : (onlyLens z l).raytrace p.1 p.2 = (onlyLens z l).raytrace p'.1 p'.2) :
    (withSheet z x0 y0 (1 - k) l').timeDelay e zs true true p.1 p.2
        - (withSheet z x0 y0 (1 - k) l').timeDelay e zs true true p'.1 p'.2
      = k * ((onlyLens z l).timeDelay e zs true true p.1 p.2 - (onlyLens z l).timeDelay e zs true true p'.1 p'.2) := by
  obtain ⟨h1, -, h3⟩ := h p.1 p.2
  obtain ⟨h1', -, h3'⟩ := h p'.1 p'.2
  simp only [ThinLensFn.raytrace, onlyLens, Prod.mk.injEq] at hp
  simp only [ThinLensFn.timeDelay, withSheet, onlyLens, singlePlane, singlePlaneDeflection, singlePlanePotential,
    List.foldl_cons, List.foldl_nil, h1, h3, h1', h3', sheetFn, sheetDeflection, sheetPotential, translateRotate, zero_add, if_true]
  obtain ⟨e1, e2⟩ := hp
  generalize (l.deflection p.1 p.2).1 = a1 at *
  generalize (l.deflection p.1 p.2).2 = a2 at *
  generalize (l.deflection p'.1 p'.2).1 = c1 at *
  generalize (l.deflection p'.1 p'.2).2 = c2 at *
  generalize MPEnv.arcsec2ToDays e _ _ _ _ = D
  generalize l.potential p.1 p.2 = ψ
  generalize l.potential p'.1 p'.2 = ψ'
  obtain ⟨x, y⟩ := p
  obtain ⟨u, v⟩ := p'
  simp only at *
  obtain rfl : a1 = x - (u - c1) := by linarith
  obtain rfl : a2 = y - (v - c2) := by linarith
  ring

/-! ### Which parameter to change -/

/-- SIS, SIE: the Einstein radius; shear: both components; mass sheet: the convergence; multipoles: the
amplitudes; pseudo-Jaffe and truncated NFW by total mass: the mass. -/
theorem C87_weaker (k x0 y0 : ℝ) :
    (∀ Rein s, Weaker k ⟨sisDeflection x0 y0 Rein s, sisConvergence x0 y0 Rein s, sisPotential x0 y0 Rein s⟩
      ⟨sisDeflection x0 y0 (k * Rein) s, sisConvergence x0 y0 (k * Rein) s, sisPotential x0 y0 (k * Rein) s⟩) ∧
    (∀ q phi Rein s, Weaker k ⟨sieDeflection x0 y0 q phi Rein s, sieConvergence x0 y0 q phi Rein s, siePotential x0 y0 q phi Rein s⟩
      ⟨sieDeflection x0 y0 q phi (k * Rein) s, sieConvergence x0 y0 q phi (k * Rein) s, siePotential x0 y0 q phi (k * Rein) s⟩) ∧
    (∀ g1 g2, Weaker k ⟨shearDeflection x0 y0 g1 g2, shearConvergence, shearPotential x0 y0 g1 g2⟩
      ⟨shearDeflection x0 y0 (k * g1) (k * g2), shearConvergence, shearPotential x0 y0 (k * g1) (k * g2)⟩) ∧
    (∀ kappa, Weaker k (sheetFn x0 y0 kappa) (sheetFn x0 y0 (k * kappa))) ∧
    (∀ (n : ℕ) (m a phim : Fin n → ℝ), Weaker k
      ⟨multipoleDeflection x0 y0 m a phim, multipoleConvergence x0 y0 m a phim, multipolePotential x0 y0 m a phim⟩
      ⟨multipoleDeflection x0 y0 m (fun i => k * a i) phim, multipoleConvergence x0 y0 m (fun i => k * a i) phim,
        multipolePotential x0 y0 m (fun i => k * a i) phim⟩) ∧
    (∀ L : PJaffe, Weaker k ⟨L.deflection, L.convergence, L.potential⟩
      ⟨{ L with mass := k * L.mass }.deflection, { L with mass := k * L.mass }.convergence, { L with mass := k * L.mass }.potential⟩) ∧
    (∀ L : TNFWLens, L.interpretTotal = true →
      let L' : TNFWLens := { L with mass := k * L.mass }
      Weaker k ⟨L.toTNFW.deflection, L.toTNFW.convergence, L.toTNFW.potential⟩
        ⟨L'.toTNFW.deflection, L'.toTNFW.convergence, L'.toTNFW.potential⟩) := by
  refine ⟨fun Rein s x y => ?_, fun q phi Rein s x y => ?_, fun g1 g2 x y => ?_, fun kappa x y => ?_, fun n m a phim x y => ?_,
    fun L x y => ?_, ?_⟩
  · simp only [sisDeflection, sisConvergence, sisPotential, Prod.mk.injEq]
    exact ⟨⟨by ring, by ring⟩, by ring, by ring⟩
  · have hd : sieDeflection x0 y0 q phi (k * Rein) s x y
        = (k * (sieDeflection x0 y0 q phi Rein s x y).1, k * (sieDeflection x0 y0 q phi Rein s x y).2) := by
      simp only [sieDeflection, derotate, Prod.mk.injEq]
      constructor <;> ring
    refine ⟨hd, ?_, ?_⟩
    · simp only [sieConvergence]; ring
    · simp only [siePotential, hd, derotate]; ring
  · simp only [shearDeflection, shearConvergence, shearPotential, Prod.mk.injEq]
    exact ⟨⟨by ring, by ring⟩, by ring, by ring⟩
  · simp only [sheetFn, sheetDeflection, sheetConvergence, sheetPotential, Prod.mk.injEq]
    exact ⟨⟨by ring, by ring⟩, by ring, by ring⟩
  · simp only [multipoleDeflection, multipoleConvergence, multipolePotential, Prod.mk.injEq, Finset.mul_sum]
    refine ⟨⟨?_, ?_⟩, ?_, ?_⟩ <;> exact Finset.sum_congr rfl fun i _ => by ring
  · simp only [PJaffe.deflection, PJaffe.convergence, PJaffe.potential, pjKappa0, Prod.mk.injEq]
    exact ⟨⟨by ring, by ring⟩, by ring, by ring⟩
  · intro L hL L' x y
    have hM : L'.toTNFW = { L.toTNFW with M0 := k * L.toTNFW.M0 } := by
      simp only [L', TNFWLens.toTNFW, TNFWLens.M0, hL, if_true, tnfwM0Tot]
      congr 1
      ring
    rw [hM]
    simp only [TNFW.deflection, TNFW.physicalDeflection, TNFW.convergence, TNFW.potential, tnfwMassEnclosed, Prod.mk.injEq]
    exact ⟨⟨by ring, by ring⟩, by ring, by ring⟩

/-- Point mass: the Einstein radius by the square root of the factor. -/
theorem C87_weaker_point {k : ℝ} (hk : 0 ≤ k) (x0 y0 Rein s : ℝ) :
    Weaker k ⟨pointDeflection x0 y0 Rein s, fun x y => (pointConvergence x0 y0 x y).getD 0, pointPotential x0 y0 Rein s⟩
      ⟨pointDeflection x0 y0 (√k * Rein) s, fun x y => (pointConvergence x0 y0 x y).getD 0, pointPotential x0 y0 (√k * Rein) s⟩ := by
  intro x y
  have h2 : √k ^ 2 = k := sq_sqrt hk
  have hR : (√k * Rein) ^ 2 = k * Rein ^ 2 := by rw [mul_pow, h2]
  refine ⟨?_, ?_, ?_⟩
  · simp only [pointDeflection, hR, Prod.mk.injEq]
    constructor <;> ring
  · simp only [pointConvergence]
    split_ifs <;> simp
  · simp only [pointPotential, hR]; ring

/-- Power law: the Einstein radius by the factor to the power `1 / t`; an error stays the same error. -/
theorem C87_weaker_epl {k q Rein t : ℝ} (hk : 0 ≤ k) (hR : 0 ≤ Rein) (ht : t ≠ 0) (x0 y0 phi s x y : ℝ)
    (n_iter : ℕ) (chunk_size : Option ℕ) :
    eplDeflection x0 y0 q phi (k ^ (1 / t) * Rein) t n_iter chunk_size x y
      = (eplDeflection x0 y0 q phi Rein t n_iter chunk_size x y).map (fun a => (k * a.1, k * a.2)) ∧
    eplPotential x0 y0 q phi (k ^ (1 / t) * Rein) t n_iter chunk_size x y
      = (eplPotential x0 y0 q phi Rein t n_iter chunk_size x y).map (fun a => k * a) ∧
    eplConvergence x0 y0 q phi (k ^ (1 / t) * Rein) t s x y = k * eplConvergence x0 y0 q phi Rein t s x y := by
  have hpow : ∀ r, 0 ≤ r → (k ^ (1 / t) * Rein * √q / r) ^ t = k * (Rein * √q / r) ^ t := by
    intro r hr
    rw [mul_assoc, mul_div_assoc, mul_rpow (rpow_nonneg hk _) (by positivity), ← rpow_mul hk, one_div_mul_cancel ht, rpow_one]
  have hframe : ∀ u v, eplFrame q (k ^ (1 / t) * Rein) t n_iter chunk_size u v
      = (eplFrame q Rein t n_iter chunk_size u v).map (fun a => (k * a.1, k * a.2)) := by
    intro u v
    simp only [eplFrame, bind, Except.bind]
    cases rOmega (⟨q * u, v⟩ : ℂ) t q n_iter chunk_size with
    | error e => rfl
    | ok ro =>
      simp only
      split_ifs
      · simp [Except.map]
      · simp only [Except.map, hpow _ (norm_nonneg _)]
        congr 1
        simp only [Complex.re_ofReal_mul, Complex.im_ofReal_mul, Prod.mk.injEq]
        constructor <;> ring
  have hd : eplDeflection x0 y0 q phi (k ^ (1 / t) * Rein) t n_iter chunk_size x y
      = (eplDeflection x0 y0 q phi Rein t n_iter chunk_size x y).map (fun a => (k * a.1, k * a.2)) := by
    simp only [eplDeflection, hframe]
    cases eplFrame q Rein t n_iter chunk_size (translateRotate x y x0 y0 (some phi)).1 (translateRotate x y x0 y0 (some phi)).2 with
    | error e => rfl
    | ok a =>
      simp only [Except.map, bind, Except.bind, derotate]
      congr 1
      ext <;> simp only <;> ring
  refine ⟨hd, ?_, ?_⟩
  · simp only [eplPotential, hd]
    cases eplDeflection x0 y0 q phi Rein t n_iter chunk_size x y with
    | error e => rfl
    | ok a =>
      simp only [Except.map, bind, Except.bind, derotate]
      congr 1
      ring
  · simp only [eplConvergence]
    rw [hpow _ (sqrt_nonneg _)]
    ring

/-- An SIS of Einstein radius 5 at (1, 2) and one of radius 4 with a sheet of convergence 1/5: both see the
source at the position (9, 8). -/
example : (withSheet 1 1 2 (1 - 4 / 5) ⟨sisDeflection 1 2 (4 / 5 * 5) 0, sisConvergence 1 2 (4 / 5 * 5) 0, sisPotential 1 2 (4 / 5 * 5) 0⟩).raytrace 9 8
    = (1 + 4 / 5 * (5 - 1), 2 + 4 / 5 * (5 - 2)) := by
  refine (C87_images (b := (5, 5)) (by norm_num) ((C87_weaker (4 / 5) 1 2).1 5 0) 9 8).2 ?_
  have h : √((9 - 1 : ℝ) ^ 2 + (8 - 2) ^ 2) = 10 := by
    rw [show (9 - 1 : ℝ) ^ 2 + (8 - 2) ^ 2 = 10 ^ 2 by norm_num]; exact sqrt_sq (by norm_num)
  simp only [onlyLens, ThinLensFn.raytrace, sisDeflection, translateRotate, h]
  norm_num

/-- The two images (4, 0) and (-1, 0) of the source (3, 0) behind a point mass of radius 2, with four ninths
of the mass and the sheet that makes up for it: delays four ninths of what they were. -/
example (e : MPEnv ℝ) :
    let l : LensFn ℝ := ⟨pointDeflection 0 0 2 0, fun x y => (pointConvergence 0 0 x y).getD 0, pointPotential 0 0 2 0⟩
    let l' : LensFn ℝ := ⟨pointDeflection 0 0 (√(4 / 9) * 2) 0, fun x y => (pointConvergence 0 0 x y).getD 0,
      pointPotential 0 0 (√(4 / 9) * 2) 0⟩
    (withSheet 1 0 0 (1 - 4 / 9) l').timeDelay e 2 true true (-1) 0 - (withSheet 1 0 0 (1 - 4 / 9) l').timeDelay e 2 true true 4 0
      = 4 / 9 * ((onlyLens 1 l).timeDelay e 2 true true (-1) 0 - (onlyLens 1 l).timeDelay e 2 true true 4 0) := by
  intro l l'
  refine C87_delay (p := (-1, 0)) (p' := (4, 0)) (C87_weaker_point (by norm_num) 0 0 2 0) e 2 ?_
  have h1 : √((-1 : ℝ) ^ 2 + 0 ^ 2) = 1 := by norm_num
  have h2 : √((4 : ℝ) ^ 2 + 0 ^ 2) = 4 := by
    rw [show (4 : ℝ) ^ 2 + 0 ^ 2 = 4 ^ 2 by norm_num]; exact sqrt_sq (by norm_num)
  simp only [l, onlyLens, ThinLensFn.raytrace, pointDeflection, translateRotate, sub_zero, add_zero, h1, h2]
  norm_num

end Caustics

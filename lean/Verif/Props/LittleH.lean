import Verif.Model.Cosmology
import Verif.Model.Lenses
import Verif.Model.TNFWMass
import Verif.Props.Cosmology

/-!
C99: what the Hubble constant does.  All lengths scale together, so lenses given in angular units image alike and
delays scale like lengths; lenses given by a mass image alike when masses are scaled with the lengths and the critical
density of the universe with their inverse square.
-/

open Real

namespace Caustics

/-! ### Scaling all distances -/

section
variable {K : Type} [Field K] [LinearOrder K]

/-- The same surroundings with all distances multiplied by `k`. -/
def MPEnv.stretch (e : MPEnv K) (k : K) : MPEnv K := { e with dist := fun z => k * e.dist z }

omit [LinearOrder K] in
theorem stretch_dist12 (e : MPEnv K) (k z1 z2 : K) : (e.stretch k).dist12 z1 z2 = k * e.dist12 z1 z2 := by
  simp only [MPEnv.dist12, MPEnv.stretch]; ring

/-- The states the ray passes through: positions (lengths) and delay stretched, angles the same. -/
def MPState.stretch (s : MPState K) (k : K) : MPState K := ⟨k * s.X, k * s.Y, s.thx, s.thy, k * s.td⟩

omit [LinearOrder K] in
theorem mpBody_stretch (e : MPEnv K) {k : K} (hk : k ≠ 0) (zs : K) (sh ge : Bool) (l : MPlane K) (zn : K) (s : MPState K) :
    mpBody (e.stretch k) zs sh ge l zn (s.stretch k) = (mpBody e zs sh ge l zn s).stretch k := by
  have hd : ∀ z, (e.stretch k).dist z = k * e.dist z := fun _ => rfl
  have hr : (e.stretch k).radToArcsec = e.radToArcsec := rfl
  have ha : (e.stretch k).arcsecToRad = e.arcsecToRad := rfl
  have hc : (e.stretch k).cMpcS = e.cMpcS := rfl
  have hs : (e.stretch k).daysToSeconds = e.daysToSeconds := rfl
  have p1 : k * s.X * e.radToArcsec / (k * e.dist l.z) = s.X * e.radToArcsec / e.dist l.z := by
    rw [mul_assoc, mul_div_mul_left _ _ hk]
  have p2 : k * s.Y * e.radToArcsec / (k * e.dist l.z) = s.Y * e.radToArcsec / e.dist l.z := by
    rw [mul_assoc, mul_div_mul_left _ _ hk]
  have t1 : (1 + l.z) * (k * e.dist l.z) * (k * e.dist zn) / (k * e.dist12 l.z zn * e.cMpcS) / e.daysToSeconds
      = k * ((1 + l.z) * e.dist l.z * e.dist zn / (e.dist12 l.z zn * e.cMpcS) / e.daysToSeconds) := by
    rw [show (1 + l.z) * (k * e.dist l.z) * (k * e.dist zn) = k * (k * ((1 + l.z) * e.dist l.z * e.dist zn)) by ring,
      mul_assoc k (e.dist12 l.z zn), mul_div_mul_left _ _ hk]
    ring
  have t2 : k * e.dist12 l.z zn * (k * e.dist zs) / (k * e.dist zn * (k * e.dist12 l.z zs))
      = e.dist12 l.z zn * e.dist zs / (e.dist zn * e.dist12 l.z zs) := by
    rw [show k * e.dist12 l.z zn * (k * e.dist zs) = k * (k * (e.dist12 l.z zn * e.dist zs)) by ring,
      show k * e.dist zn * (k * e.dist12 l.z zs) = k * (k * (e.dist zn * e.dist12 l.z zs)) by ring,
      mul_div_mul_left _ _ hk, mul_div_mul_left _ _ hk]
  simp only [mpBody, stretch_dist12, hd, hr, ha, hc, hs, MPState.stretch, p1, p2, t1, t2, MPState.mk.injEq, true_and]
  refine ⟨by ring, by ring, ?_⟩
  cases sh <;> cases ge <;> simp only [if_true, Bool.false_eq_true, if_false] <;> ring

omit [LinearOrder K] in
theorem mpLoop_stretch (e : MPEnv K) {k : K} (hk : k ≠ 0) (zs : K) (sh ge : Bool) (lenses : List (MPlane K)) (last : ℕ)
    (order : List ℕ) (s : MPState K) :
    mpLoop (e.stretch k) zs sh ge lenses last order (s.stretch k)
      = (mpLoop e zs sh ge lenses last order s).map (·.stretch k) := by
  induction order generalizing s with
  | nil => rfl
  | cons i is ih =>
    simp only [mpLoop]
    split
    · rw [mpBody_stretch e hk, ih]
    · rfl

/-- Multiplane ray tracing: same positions, and delays in proportion, failures included. -/
theorem C99_multiplane (e : MPEnv K) {k : K} (hk : k ≠ 0) (zs : K) (sh ge : Bool) (lenses : List (MPlane K)) (x y : K) :
    mpRaytrace (e.stretch k) zs lenses x y = mpRaytrace e zs lenses x y ∧
    mpTimeDelay (e.stretch k) zs sh ge lenses x y = (mpTimeDelay e zs sh ge lenses x y).map (k * ·) := by
  have hH : ∀ sh ge, mpHelper (e.stretch k) zs sh ge lenses x y
      = (mpHelper e zs sh ge lenses x y).map fun r => (r.1, k * r.2) := by
    intro sh ge
    simp only [mpHelper]
    cases (lensPlanes (lenses.map MPlane.z)).head? with
    | none => rfl
    | some i0 =>
      cases (lensPlanes (lenses.map MPlane.z)).getLast? with
      | none => rfl
      | some last =>
        dsimp only
        cases (lenses.map MPlane.z)[i0]? with
        | none => rfl
        | some z0 =>
          dsimp only
          have h0 : (⟨x * (e.stretch k).arcsecToRad * (e.stretch k).dist z0, y * (e.stretch k).arcsecToRad * (e.stretch k).dist z0, x, y, 0⟩ : MPState K)
              = (⟨x * e.arcsecToRad * e.dist z0, y * e.arcsecToRad * e.dist z0, x, y, 0⟩ : MPState K).stretch k := by
            simp only [MPState.stretch, MPEnv.stretch, MPEnv.arcsecToRad, MPState.mk.injEq, mul_zero, and_true]
            constructor <;> ring
          rw [h0, mpLoop_stretch e hk]
          cases mpLoop e zs sh ge lenses last (lensPlanes (lenses.map MPlane.z))
              (⟨x * e.arcsecToRad * e.dist z0, y * e.arcsecToRad * e.dist z0, x, y, 0⟩ : MPState K) with
          | none => rfl
          | some s =>
            simp only [Option.map_some, MPState.stretch, MPEnv.stretch, Option.some.injEq, Prod.mk.injEq, and_true]
            constructor <;> rw [mul_assoc, mul_div_mul_left _ _ hk]
  constructor
  · simp only [mpRaytrace, hH, Option.map_map]
    rfl
  · unfold mpTimeDelay
    split_ifs
    · simp only [hH, Option.map_map]
      rfl
    · rfl

omit [LinearOrder K] in
/-- Thin lenses: same physical deflection, and delays in proportion. -/
theorem C99_thin_lens (e : MPEnv K) {k : K} (hk : k ≠ 0) (zs : K) (sh ge : Bool) (l : ThinLensFn K) (x y : K) :
    l.physical (e.stretch k) zs x y = l.physical e zs x y ∧
    l.plane (e.stretch k) zs = l.plane e zs ∧
    l.timeDelay (e.stretch k) zs sh ge x y = k * l.timeDelay e zs sh ge x y := by
  have h12 : ∀ z1 z2, (e.stretch k).angDist12 z1 z2 = k * e.angDist12 z1 z2 := by
    intro z1 z2
    simp only [MPEnv.angDist12, MPEnv.stretch]; ring
  have h1 : ∀ z, (e.stretch k).angDist z = k * e.angDist z := by
    intro z
    simp only [MPEnv.angDist, MPEnv.stretch]; ring
  have hp : l.physical (e.stretch k) zs = l.physical e zs := by
    funext x y
    simp only [ThinLensFn.physical, physicalFromReduced, h12, h1, mul_div_mul_left _ _ hk]
  refine ⟨by rw [hp], by simp only [ThinLensFn.plane, hp], ?_⟩
  have hf : (e.stretch k).arcsec2ToDays (k * e.angDist l.z) (k * e.angDist zs) (k * e.angDist12 l.z zs) l.z
      = k * e.arcsec2ToDays (e.angDist l.z) (e.angDist zs) (e.angDist12 l.z zs) l.z := by
    simp only [MPEnv.arcsec2ToDays, MPEnv.stretch, MPEnv.arcsecToRad]
    rw [show (1 + l.z) / e.cMpcS * (k * e.angDist zs) * (k * e.angDist l.z)
        = k * (k * ((1 + l.z) / e.cMpcS * e.angDist zs * e.angDist l.z)) by ring, mul_div_mul_left _ _ hk]
    ring
  simp only [ThinLensFn.timeDelay, h12, h1, hf]
  ring

end

/-! ### The Hubble constant -/

/-- The universe with Hubble constant `s` times as large and, as Friedmann's equation asks, `s²` times the critical density. -/
def FlatLambda.rescale (f : FlatLambda) (s : ℝ) : FlatLambda := { f with h0 := s * f.h0, rhoCrit0 := s ^ 2 * f.rhoCrit0 }

theorem rescale_comoving (f : FlatLambda) (s z : ℝ) : (f.rescale s).comovingDistance z = s⁻¹ * f.comovingDistance z := by
  unfold FlatLambda.comovingDistance FlatLambda.hubbleDistance FlatLambda.rescale
  simp only
  rw [div_mul_eq_div_div_swap]
  ring

theorem rescale_angular (f : FlatLambda) (s G z : ℝ) : ((f.rescale s).cosmo G).angular z = s⁻¹ * (f.cosmo G).angular z := by
  simp only [Cosmo.angular, FlatLambda.cosmo, rescale_comoving]; ring

theorem rescale_angular12 (f : FlatLambda) (s G z z' : ℝ) :
    ((f.rescale s).cosmo G).angular12 z z' = s⁻¹ * (f.cosmo G).angular12 z z' := by
  simp only [Cosmo.angular12, Cosmo.comoving12, FlatLambda.cosmo, rescale_comoving]; ring

/-- Ray tracing does not depend on the Hubble constant, and delays are inversely proportional to it. -/
theorem C99_hubble (f : FlatLambda) (e : MPEnv ℝ) (he : e.dist = f.comovingDistance) {s : ℝ} (hs : s ≠ 0) (zs : ℝ) (sh ge : Bool)
    (lenses : List (ThinLensFn ℝ)) (x y : ℝ) :
    let e' : MPEnv ℝ := { e with dist := (f.rescale s).comovingDistance }
    mpRaytrace e' zs (lenses.map (ThinLensFn.plane e' zs)) x y = mpRaytrace e zs (lenses.map (ThinLensFn.plane e zs)) x y ∧
    mpTimeDelay e' zs sh ge (lenses.map (ThinLensFn.plane e' zs)) x y
      = (mpTimeDelay e zs sh ge (lenses.map (ThinLensFn.plane e zs)) x y).map (· / s) ∧
    ∀ l : ThinLensFn ℝ, l.timeDelay e' zs sh ge x y = l.timeDelay e zs sh ge x y / s := by
  intro e'
  have hk : s⁻¹ ≠ 0 := inv_ne_zero hs
  have h : e' = e.stretch s⁻¹ := by
    simp only [e', MPEnv.stretch, he]
    congr 1
    funext z
    exact rescale_comoving f s z
  rw [h]
  have hp : lenses.map (ThinLensFn.plane (e.stretch s⁻¹) zs) = lenses.map (ThinLensFn.plane e zs) :=
    List.map_congr_left fun l _ => (C99_thin_lens e hk zs sh ge l 0 0).2.1
  rw [hp]
  refine ⟨(C99_multiplane e hk zs sh ge _ x y).1, ?_, fun l => ?_⟩
  · rw [(C99_multiplane e hk zs sh ge _ x y).2]
    congr 1
    funext t
    ring
  · rw [(C99_thin_lens e hk zs sh ge l x y).2.2]
    ring

/-- Distances between, time-delay distance and critical surface density. -/
theorem C99_distances (f : FlatLambda) (G : ℝ) {s : ℝ} (hs : s ≠ 0) (zl zs : ℝ) :
    ((f.rescale s).cosmo G).timeDelayDistance zl zs = (f.cosmo G).timeDelayDistance zl zs / s ∧
    ((f.rescale s).cosmo G).criticalSurfaceDensity zl zs = s * (f.cosmo G).criticalSurfaceDensity zl zs := by
  have hG : ((f.rescale s).cosmo G).GOverC2 = (f.cosmo G).GOverC2 := rfl
  simp only [Cosmo.timeDelayDistance, Cosmo.criticalSurfaceDensity, rescale_angular, rescale_angular12, hG]
  constructor
  · rw [show (1 + zl) * (s⁻¹ * (f.cosmo G).angular zl) * (s⁻¹ * (f.cosmo G).angular zs)
        = s⁻¹ * (s⁻¹ * ((1 + zl) * (f.cosmo G).angular zl * (f.cosmo G).angular zs)) by ring, mul_div_mul_left _ _ (inv_ne_zero hs)]
    ring
  · rw [show 4 * π * (f.cosmo G).GOverC2 * (s⁻¹ * (f.cosmo G).angular zl) * (s⁻¹ * (f.cosmo G).angular12 zl zs)
        = s⁻¹ * (s⁻¹ * (4 * π * (f.cosmo G).GOverC2 * (f.cosmo G).angular zl * (f.cosmo G).angular12 zl zs)) by ring,
      mul_div_mul_left _ _ (inv_ne_zero hs)]
    rw [div_mul_eq_div_div_swap, div_inv_eq_mul]
    ring

/-! ### Lenses given by a mass -/

/-- `NFW` in a universe: what lenses/nfw.py takes from its cosmology. -/
noncomputable def nfwIn (f : FlatLambda) (G zl zs x0 y0 mass c Delta s : ℝ) : NFW where
  Gc2 := G
  x0 := x0
  y0 := y0
  mass := mass
  c := c
  Delta := Delta
  rhoc := f.criticalDensity zl
  d_l := (f.cosmo G).angular zl
  d_s := (f.cosmo G).angular zs
  d_ls := (f.cosmo G).angular12 zl zs
  sigmacr := (f.cosmo G).criticalSurfaceDensity zl zs
  s := s

/-- `PseudoJaffe` in a universe. -/
noncomputable def pjaffeIn (f : FlatLambda) (G zl zs x0 y0 mass Rc Rs s : ℝ) : PJaffe where
  Gc2 := G
  x0 := x0
  y0 := y0
  mass := mass
  Rc := Rc
  Rs := Rs
  d_l := (f.cosmo G).angular zl
  d_s := (f.cosmo G).angular zs
  d_ls := (f.cosmo G).angular12 zl zs
  sigmacr := (f.cosmo G).criticalSurfaceDensity zl zs
  s := s

/-- `TNFW` in a universe. -/
noncomputable def tnfwIn (f : FlatLambda) (G zl zs x0 y0 M0 Rs tau s : ℝ) : TNFW where
  Gc2 := G
  x0 := x0
  y0 := y0
  M0 := M0
  Rs := Rs
  tau := tau
  d_l := (f.cosmo G).angular zl
  d_s := (f.cosmo G).angular zs
  d_ls := (f.cosmo G).angular12 zl zs
  sigmacr := (f.cosmo G).criticalSurfaceDensity zl zs
  s := s

theorem rescale_criticalDensity (f : FlatLambda) (s z : ℝ) : (f.rescale s).criticalDensity z = s ^ 2 * f.criticalDensity z := by
  simp only [FlatLambda.criticalDensity, FlatLambda.rescale]; ring

theorem rescale_nfwRs (rhoc c : ℝ) {mass Delta s : ℝ} (hs : 0 < s) (h : 0 ≤ 3 * mass / (4 * π * Delta * rhoc)) :
    nfwScaleRadius (s ^ 2 * rhoc) (mass / s) c Delta = s⁻¹ * nfwScaleRadius rhoc mass c Delta := by
  have e : 3 * (mass / s) / (4 * π * Delta * (s ^ 2 * rhoc)) = 3 * mass / (4 * π * Delta * rhoc) * (s⁻¹) ^ 3 := by
    rw [show 4 * π * Delta * (s ^ 2 * rhoc) = s ^ 2 * (4 * π * Delta * rhoc) by ring]
    field_simp
  have e3 : (s⁻¹ ^ 3) ^ ((1 : ℝ) / 3) = s⁻¹ := by
    rw [← rpow_natCast, ← rpow_mul (by positivity)]
    norm_num
  unfold nfwScaleRadius
  rw [e, mul_rpow h (by positivity), e3]
  ring

/-- Halo lenses in units with `h`: masses in `1/h`. -/
theorem C99_nfw (f : FlatLambda) (G zl zs x0 y0 mass c Delta soft : ℝ) {s : ℝ} (hs : 0 < s)
    (h : 0 ≤ 3 * mass / (4 * π * Delta * f.criticalDensity zl)) (x y : ℝ) :
    (nfwIn (f.rescale s) G zl zs x0 y0 (mass / s) c Delta soft).deflection x y = (nfwIn f G zl zs x0 y0 mass c Delta soft).deflection x y ∧
    (nfwIn (f.rescale s) G zl zs x0 y0 (mass / s) c Delta soft).convergence x y = (nfwIn f G zl zs x0 y0 mass c Delta soft).convergence x y ∧
    (nfwIn (f.rescale s) G zl zs x0 y0 (mass / s) c Delta soft).potential x y = (nfwIn f G zl zs x0 y0 mass c Delta soft).potential x y := by
  have hi : s⁻¹ ≠ 0 := inv_ne_zero hs.ne'
  have hrs := rescale_nfwRs (f.criticalDensity zl) c hs h
  have hden : nfwScaleDensity (s ^ 2 * f.criticalDensity zl) c Delta = s ^ 2 * nfwScaleDensity (f.criticalDensity zl) c Delta := by
    unfold nfwScaleDensity; ring
  have hks : nfwConvergenceS (s * (f.cosmo G).criticalSurfaceDensity zl zs) (s ^ 2 * f.criticalDensity zl) (mass / s) c Delta
      = nfwConvergenceS ((f.cosmo G).criticalSurfaceDensity zl zs) (f.criticalDensity zl) mass c Delta := by
    unfold nfwConvergenceS
    rw [hrs, hden]
    rw [show s⁻¹ * nfwScaleRadius (f.criticalDensity zl) mass c Delta * (s ^ 2 * nfwScaleDensity (f.criticalDensity zl) c Delta)
      = s * (nfwScaleRadius (f.criticalDensity zl) mass c Delta * nfwScaleDensity (f.criticalDensity zl) c Delta) by field_simp,
      mul_div_mul_left _ _ hs.ne']
  have hr : ∀ th, s⁻¹ * (f.cosmo G).angular zl * th * arcsecToRad / (s⁻¹ * nfwScaleRadius (f.criticalDensity zl) mass c Delta)
      = (f.cosmo G).angular zl * th * arcsecToRad / nfwScaleRadius (f.criticalDensity zl) mass c Delta := by
    intro th
    rw [show s⁻¹ * (f.cosmo G).angular zl * th * arcsecToRad = s⁻¹ * ((f.cosmo G).angular zl * th * arcsecToRad) by ring,
      mul_div_mul_left _ _ hi]
  have hq : s⁻¹ * (f.cosmo G).angular12 zl zs / (s⁻¹ * (f.cosmo G).angular zs) = (f.cosmo G).angular12 zl zs / (f.cosmo G).angular zs :=
    mul_div_mul_left _ _ hi
  simp only [NFW.deflection, NFW.physicalDeflection, NFW.convergence, NFW.potential, NFW.rs, nfwIn, rescale_criticalDensity, rescale_angular,
    rescale_angular12, (C99_distances f G hs.ne' zl zs).2, hrs, hden, hks, hr, hq]
  refine ⟨?_, trivial, ?_⟩
  · have ha : ∀ th H, 16 * π * G * (s ^ 2 * nfwScaleDensity (f.criticalDensity zl) c Delta)
          * (s⁻¹ * nfwScaleRadius (f.criticalDensity zl) mass c Delta) ^ 3 * H * radToArcsec / (s⁻¹ * (f.cosmo G).angular zl * th * arcsecToRad)
        = 16 * π * G * nfwScaleDensity (f.criticalDensity zl) c Delta * nfwScaleRadius (f.criticalDensity zl) mass c Delta ^ 3 * H * radToArcsec
          / ((f.cosmo G).angular zl * th * arcsecToRad) := by
      intro th H
      rw [show 16 * π * G * (s ^ 2 * nfwScaleDensity (f.criticalDensity zl) c Delta)
          * (s⁻¹ * nfwScaleRadius (f.criticalDensity zl) mass c Delta) ^ 3 * H * radToArcsec
          = s⁻¹ * (16 * π * G * nfwScaleDensity (f.criticalDensity zl) c Delta * nfwScaleRadius (f.criticalDensity zl) mass c Delta ^ 3 * H * radToArcsec) by
            field_simp,
        show s⁻¹ * (f.cosmo G).angular zl * th * arcsecToRad = s⁻¹ * ((f.cosmo G).angular zl * th * arcsecToRad) by ring,
        mul_div_mul_left _ _ hi]
    simp only [ha]
  · rw [mul_pow, mul_pow, show ∀ a b c : ℝ, a * (b * c) = b * (a * c) by intros; ring, show s⁻¹ ^ 2 * (f.cosmo G).angular zl ^ 2 * arcsecToRad ^ 2
      = s⁻¹ ^ 2 * ((f.cosmo G).angular zl ^ 2 * arcsecToRad ^ 2) by ring, mul_div_mul_left _ _ (pow_ne_zero 2 hi)]

/-- Pseudo-Jaffe, truncated NFW, point mass and isothermal lenses. -/
theorem C99_masses (f : FlatLambda) (G zl zs x0 y0 : ℝ) {s : ℝ} (hs : 0 < s) (x y : ℝ) :
    (∀ mass Rc Rs soft,
      (pjaffeIn (f.rescale s) G zl zs x0 y0 (mass / s) Rc Rs soft).deflection x y = (pjaffeIn f G zl zs x0 y0 mass Rc Rs soft).deflection x y ∧
      (pjaffeIn (f.rescale s) G zl zs x0 y0 (mass / s) Rc Rs soft).convergence x y = (pjaffeIn f G zl zs x0 y0 mass Rc Rs soft).convergence x y ∧
      (pjaffeIn (f.rescale s) G zl zs x0 y0 (mass / s) Rc Rs soft).potential x y = (pjaffeIn f G zl zs x0 y0 mass Rc Rs soft).potential x y) ∧
    (∀ M0 Rs tau soft,
      (tnfwIn (f.rescale s) G zl zs x0 y0 (M0 / s) Rs tau soft).deflection x y = (tnfwIn f G zl zs x0 y0 M0 Rs tau soft).deflection x y ∧
      (tnfwIn (f.rescale s) G zl zs x0 y0 (M0 / s) Rs tau soft).convergence x y = (tnfwIn f G zl zs x0 y0 M0 Rs tau soft).convergence x y ∧
      (tnfwIn (f.rescale s) G zl zs x0 y0 (M0 / s) Rs tau soft).potential x y = (tnfwIn f G zl zs x0 y0 M0 Rs tau soft).potential x y) ∧
    (∀ M, massToReinPoint G (M / s) (((f.rescale s).cosmo G).angular12 zl zs) (((f.rescale s).cosmo G).angular zl) (((f.rescale s).cosmo G).angular zs)
      = massToReinPoint G M ((f.cosmo G).angular12 zl zs) ((f.cosmo G).angular zl) ((f.cosmo G).angular zs)) ∧
    (∀ c sv, sigmaVToRein c sv (((f.rescale s).cosmo G).angular12 zl zs) (((f.rescale s).cosmo G).angular zs)
      = sigmaVToRein c sv ((f.cosmo G).angular12 zl zs) ((f.cosmo G).angular zs)) := by
  have hi : s⁻¹ ≠ 0 := inv_ne_zero hs.ne'
  have hq : s⁻¹ * (f.cosmo G).angular12 zl zs / (s⁻¹ * (f.cosmo G).angular zs) = (f.cosmo G).angular12 zl zs / (f.cosmo G).angular zs :=
    mul_div_mul_left _ _ hi
  refine ⟨fun mass Rc Rs soft => ?_, fun M0 Rs tau soft => ?_, fun M => ?_, fun c sv => ?_⟩
  · have h1 : pjKappa0 (mass / s) Rc Rs (s⁻¹ * (f.cosmo G).angular zl) (s * (f.cosmo G).criticalSurfaceDensity zl zs)
        = pjKappa0 mass Rc Rs ((f.cosmo G).angular zl) ((f.cosmo G).criticalSurfaceDensity zl zs) := by
      unfold pjKappa0
      rw [show 2 * π * (s * (f.cosmo G).criticalSurfaceDensity zl zs) * Rc * Rs * (s⁻¹ * (f.cosmo G).angular zl * arcsecToRad) ^ 2
        = s⁻¹ * (2 * π * (f.cosmo G).criticalSurfaceDensity zl zs * Rc * Rs * ((f.cosmo G).angular zl * arcsecToRad) ^ 2) by field_simp,
        div_eq_inv_mul mass s, mul_div_mul_left _ _ hi]
    have h2 : pjKappa0 (mass / s) Rc Rs (s⁻¹ * (f.cosmo G).angular zl) 1 = s * pjKappa0 mass Rc Rs ((f.cosmo G).angular zl) 1 := by
      unfold pjKappa0
      rw [show 2 * π * 1 * Rc * Rs * (s⁻¹ * (f.cosmo G).angular zl * arcsecToRad) ^ 2
        = s⁻¹ * (s⁻¹ * (2 * π * 1 * Rc * Rs * ((f.cosmo G).angular zl * arcsecToRad) ^ 2)) by ring,
        div_eq_inv_mul mass s, mul_div_mul_left _ _ hi, div_mul_eq_div_div_swap, div_inv_eq_mul]
      ring
    have h3 : s⁻¹ * (f.cosmo G).angular zl * (s⁻¹ * (f.cosmo G).angular12 zl zs) / (s⁻¹ * (f.cosmo G).angular zs)
        = s⁻¹ * ((f.cosmo G).angular zl * (f.cosmo G).angular12 zl zs / (f.cosmo G).angular zs) := by
      rw [mul_div_assoc, hq]; ring
    have h4 : 8 * π * G * (s * pjKappa0 mass Rc Rs ((f.cosmo G).angular zl) 1)
          * (s⁻¹ * ((f.cosmo G).angular zl * (f.cosmo G).angular12 zl zs / (f.cosmo G).angular zs)) * Rc * Rs
        = 8 * π * G * pjKappa0 mass Rc Rs ((f.cosmo G).angular zl) 1
          * ((f.cosmo G).angular zl * (f.cosmo G).angular12 zl zs / (f.cosmo G).angular zs) * Rc * Rs := by
      have hss : s * s⁻¹ = 1 := mul_inv_cancel₀ hs.ne'
      linear_combination (8 * π * G * pjKappa0 mass Rc Rs ((f.cosmo G).angular zl) 1
        * ((f.cosmo G).angular zl * (f.cosmo G).angular12 zl zs / (f.cosmo G).angular zs) * Rc * Rs) * hss
    simp only [PJaffe.deflection, PJaffe.convergence, PJaffe.potential, pjaffeIn, rescale_angular, rescale_angular12,
      (C99_distances f G hs.ne' zl zs).2, h1, h2, h3, h4, and_self]
  · have hM : ∀ r, tnfwMassEnclosed r Rs tau (M0 / s) = s⁻¹ * tnfwMassEnclosed r Rs tau M0 := by
      intro r
      unfold tnfwMassEnclosed
      ring
    have h1 : ∀ r m, s⁻¹ * m / (r * (s⁻¹ * (f.cosmo G).angular zl) * arcsecToRad) = m / (r * (f.cosmo G).angular zl * arcsecToRad) := by
      intro r m
      rw [show r * (s⁻¹ * (f.cosmo G).angular zl) * arcsecToRad = s⁻¹ * (r * (f.cosmo G).angular zl * arcsecToRad) by ring,
        mul_div_mul_left _ _ hi]
    have h2 : ∀ A, A * (M0 / s / (2 * π * (Rs * (s⁻¹ * (f.cosmo G).angular zl) * arcsecToRad) ^ 2)) / (s * (f.cosmo G).criticalSurfaceDensity zl zs)
        = A * (M0 / (2 * π * (Rs * (f.cosmo G).angular zl * arcsecToRad) ^ 2)) / (f.cosmo G).criticalSurfaceDensity zl zs := by
      intro A
      rw [show 2 * π * (Rs * (s⁻¹ * (f.cosmo G).angular zl) * arcsecToRad) ^ 2
          = s⁻¹ * (s⁻¹ * (2 * π * (Rs * (f.cosmo G).angular zl * arcsecToRad) ^ 2)) by ring,
        div_eq_inv_mul M0 s, mul_div_mul_left _ _ hi,
        show A * (M0 / (s⁻¹ * (2 * π * (Rs * (f.cosmo G).angular zl * arcsecToRad) ^ 2)))
          = s * (A * (M0 / (2 * π * (Rs * (f.cosmo G).angular zl * arcsecToRad) ^ 2))) by
            rw [div_mul_eq_div_div_swap, div_inv_eq_mul]; ring,
        mul_div_mul_left _ _ hs.ne']
    have h3 : 2 * (M0 / s) * G * ((f.cosmo G).angular12 zl zs / (f.cosmo G).angular zs) / (s⁻¹ * (f.cosmo G).angular zl * arcsecToRad ^ 2)
        = 2 * M0 * G * ((f.cosmo G).angular12 zl zs / (f.cosmo G).angular zs) / ((f.cosmo G).angular zl * arcsecToRad ^ 2) := by
      rw [mul_assoc s⁻¹, show 2 * (M0 / s) * G * ((f.cosmo G).angular12 zl zs / (f.cosmo G).angular zs)
        = s⁻¹ * (2 * M0 * G * ((f.cosmo G).angular12 zl zs / (f.cosmo G).angular zs)) by ring, mul_div_mul_left _ _ hi]
    simp only [TNFW.deflection, TNFW.physicalDeflection, TNFW.convergence, TNFW.potential, tnfwIn, rescale_angular, rescale_angular12,
      (C99_distances f G hs.ne' zl zs).2, hM, h1, h2, h3, hq]
    exact ⟨trivial, rfl, trivial⟩
  · unfold massToReinPoint
    rw [rescale_angular, rescale_angular, rescale_angular12,
      show 4 * G * (M / s) * (s⁻¹ * (f.cosmo G).angular12 zl zs) = s⁻¹ * (s⁻¹ * (4 * G * M * (f.cosmo G).angular12 zl zs)) by ring,
      show s⁻¹ * (f.cosmo G).angular zl * (s⁻¹ * (f.cosmo G).angular zs) = s⁻¹ * (s⁻¹ * ((f.cosmo G).angular zl * (f.cosmo G).angular zs)) by ring,
      mul_div_mul_left _ _ hi, mul_div_mul_left _ _ hi]
  · unfold sigmaVToRein
    rw [rescale_angular, rescale_angular12, mul_div_assoc, hq, mul_div_assoc]

/-- The full claim: setting `h0` alone gives a universe that obeys Friedmann's equation, its critical density going with the square of `h0`. -/
def C99_friedmann_statement : Prop :=
  ∀ (f : FlatLambda) (s z : ℝ), ({ f with h0 := s * f.h0 } : FlatLambda).criticalDensity z = s ^ 2 * f.criticalDensity z

/-- It does not: `critical_density_0` is a parameter of its own and keeps the value it had. -/
theorem C99_friedmann_fails : ¬C99_friedmann_statement := by
  intro h
  have := h ⟨0.7, 1, 0.3, 1, 1, id⟩ 2 0
  simp only [FlatLambda.criticalDensity] at this
  norm_num at this

/-- With both parameters set the equation holds. -/
theorem C99_friedmann_partial (f : FlatLambda) (s z : ℝ) :
    ({ f with h0 := s * f.h0, rhoCrit0 := s ^ 2 * f.rhoCrit0 } : FlatLambda).criticalDensity z = s ^ 2 * f.criticalDensity z :=
  rescale_criticalDensity f s z

/-- Doubling the Hubble constant halves the delay of a ray through two sheets and leaves the ray where it was. -/
example :
    let e : MPEnv ℚ := ⟨id, 2, 3, 5⟩
    let ls : List (MPlane ℚ) := [⟨1, fun x y => (x / 2, y / 3), fun x y => x ^ 2 + y⟩, ⟨2, fun x y => (x / 5, y / 7), fun x y => x * y⟩]
    mpRaytrace (e.stretch (1 / 2)) 4 ls 1 2 = mpRaytrace e 4 ls 1 2 ∧ mpRaytrace e 4 ls 1 2 = some (11 / 20, 29 / 21) ∧
    mpTimeDelay (e.stretch (1 / 2)) 4 true true ls 1 2 = (mpTimeDelay e 4 true true ls 1 2).map (1 / 2 * ·) ∧
    mpTimeDelay e 4 true true ls 1 2 ≠ some 0 := by
  decide +kernel

end Caustics

import Verif.Model.SameRedshift
import Verif.Lemmas.Flt

/-! C146: lenses given by their mass at redshift zero, and with the source at their own redshift. -/

open Real

namespace Caustics

open Flt (fin IsFin)

/-- What is needed of a cosmology: distances start at zero and grow with redshift. -/
structure Cosmo.Grows (C : Cosmo) : Prop where
  zero : C.comoving 0 = 0
  mono : StrictMonoOn C.comoving (Set.Ici 0)
  grav : 0 < C.GOverC2

/-- The parameters of an NFW lens inside their ranges. -/
structure NFWPar.Valid (P : NFWPar) : Prop where
  mass : 0 < P.mass
  c : 0 < P.c
  Delta : 0 < P.Delta
  rhoc : 0 < P.rhoc
  s : 0 ≤ P.s

structure PJPar.Valid (P : PJPar) : Prop where
  mass : 0 < P.mass
  Rc : 0 < P.Rc
  Rs : P.Rc < P.Rs

structure PointMass.Valid (P : PointMass) : Prop where
  mass : 0 < P.mass
  s : 0 ≤ P.s

/-- Both components are numbers. -/
def IsFin2 (a : Flt × Flt) : Prop := IsFin a.1 ∧ IsFin a.2

/-- The claim: for a source not in front of the lens (and not at the observer) every method returns numbers away from the
centre of the lens; of the NFW lens the position at the scale radius is left out (C55). -/
def C146_statement : Prop :=
  ∀ (C : Cosmo) (c day zl zs x y : ℝ), C.Grows → 0 < c → 0 < day → 0 ≤ zl → zl ≤ zs → 0 < zs →
    (∀ P : NFWPar, P.Valid → (x, y) ≠ (P.x0, P.y0) → P.xi C zl x y ≠ P.rs →
      IsFin2 (P.physicalFlt C zl x y) ∧ IsFin2 (P.reducedFlt C zl zs x y) ∧ IsFin (P.convergenceFlt C zl zs x y) ∧
      IsFin (P.potentialFlt C zl zs x y) ∧ IsFin (surfaceDensityFlt C zl zs (P.convergenceFlt C zl zs x y)) ∧
      IsFin (thinDelayFlt C c day zl zs true true (P.potentialFlt C zl zs x y) (P.reducedFlt C zl zs x y))) ∧
    (∀ P : PJPar, P.Valid → (x, y) ≠ (P.x0, P.y0) →
      IsFin2 (P.physicalFlt C zl zs x y) ∧ IsFin2 (P.reducedFlt C zl zs x y) ∧ IsFin (P.convergenceFlt C zl zs x y) ∧
      IsFin (P.potentialFlt C zl zs x y) ∧ IsFin (surfaceDensityFlt C zl zs (P.convergenceFlt C zl zs x y)) ∧
      IsFin (thinDelayFlt C c day zl zs true true (P.potentialFlt C zl zs x y) (P.reducedFlt C zl zs x y))) ∧
    (∀ P : PointMass, P.Valid → (x, y) ≠ (P.x0, P.y0) →
      IsFin2 (P.physicalFlt C zl zs x y) ∧ IsFin2 (P.reducedFlt C zl zs x y) ∧ IsFin (P.potentialFlt C zl zs x y) ∧
      IsFin (thinDelayFlt C c day zl zs true true (P.potentialFlt C zl zs x y) (P.reducedFlt C zl zs x y)))

section
variable {C : Cosmo} {zl zs z x y : ℝ}

theorem Cosmo.Grows.angular_pos (h : C.Grows) (hz : 0 < z) : 0 < C.angular z := by
  have := h.mono (Set.mem_Ici.2 le_rfl) (Set.mem_Ici.2 hz.le) hz
  rw [h.zero] at this
  exact div_pos this (by linarith)

theorem Cosmo.Grows.angular12_pos (h : C.Grows) (hl : 0 ≤ zl) (hz : zl < zs) : 0 < C.angular12 zl zs := by
  have := h.mono (Set.mem_Ici.2 hl) (Set.mem_Ici.2 (hl.trans hz.le)) hz
  exact div_pos (sub_pos.2 this) (by linarith)

theorem angular12_self : C.angular12 z z = 0 := by simp [Cosmo.angular12, Cosmo.comoving12]

theorem Cosmo.Grows.angular_zero (h : C.Grows) : C.angular 0 = 0 := by simp [Cosmo.angular, h.zero]

theorem sigmaCrFlt_self (h : C.Grows) (hz : 0 < z) : C.sigmaCrFlt z z = Flt.pinf := by
  rw [Cosmo.sigmaCrFlt, angular12_self, mul_zero, Flt.pos_div_zero (h.angular_pos hz)]

theorem sigmaCrFlt_zero (h : C.Grows) (hz : 0 < zs) : C.sigmaCrFlt 0 zs = Flt.pinf := by
  rw [Cosmo.sigmaCrFlt, h.angular_zero, mul_zero, zero_mul, Flt.pos_div_zero (h.angular_pos hz)]

theorem sigmaCr_pos (h : C.Grows) (hl : 0 < zl) (hz : zl < zs) : 0 < C.criticalSurfaceDensity zl zs := by
  have h1 := h.angular_pos hl
  have h2 := h.angular_pos (hl.trans hz)
  have h3 := h.angular12_pos hl.le hz
  have h4 := h.grav
  unfold Cosmo.criticalSurfaceDensity
  positivity

theorem sigmaCrFlt_eq (h : C.Grows) (hl : 0 < zl) (hz : zl < zs) :
    C.sigmaCrFlt zl zs = fin (C.criticalSurfaceDensity zl zs) := by
  have h1 := h.angular_pos hl
  have h3 := h.angular12_pos hl.le hz
  have h4 := h.grav
  rw [Cosmo.sigmaCrFlt, Flt.fin_div _ (by positivity)]
  rfl

theorem off_centre {x0 y0 : ℝ} (h : (x, y) ≠ (x0, y0)) : 0 < √((x - x0) ^ 2 + (y - y0) ^ 2) := by
  refine sqrt_pos.2 ?_
  by_cases hx : x = x0
  · have : y - y0 ≠ 0 := fun hy => h (by rw [hx, sub_eq_zero.1 hy])
    positivity
  · have : x - x0 ≠ 0 := sub_ne_zero.2 hx
    positivity

theorem fin_div_pinf (a : ℝ) : fin a / Flt.pinf = fin 0 := rfl

theorem fin_eq_iff {a b : ℝ} : fin a = fin b ↔ a = b := ⟨fun h => by injection h, fun h => by rw [h]⟩

end

/-! ### The special functions of the NFW lens -/

theorem radToArcsec_pos' : 0 < radToArcsec := by unfold radToArcsec; positivity

theorem arcsecToRad_pos' : 0 < arcsecToRad := one_div_pos.2 radToArcsec_pos'

theorem nfwHFlt_eq {r : ℝ} (hr : 0 < r) : nfwHFlt (fin r) = fin (nfwH r) := by
  classical
  simp only [nfwHFlt, nfwH, Flt.clampMin, Flt.clampMax, gt_iff_lt]
  rw [Flt.fin_div _ two_ne_zero, Flt.log_fin (by positivity)]
  by_cases h1 : 1 < r
  · rw [if_pos (show (fin r).gtc 1 from h1), if_pos h1]
    have hg : (1 + 1e-6 : ℝ) ≤ max r (1 + 1e-6) := le_max_right _ _
    generalize max r (1 + 1e-6) = w at hg
    have hw : 1 < w := by norm_num at hg; linarith
    rw [Flt.fin_div _ (by positivity), Flt.arccos_fin (by
      rw [abs_of_pos (by positivity), div_le_one (by positivity)]; exact hw.le), Flt.fin_sq, Flt.fin_sub,
      Flt.sqrt_fin (by nlinarith), Flt.fin_div _ (sqrt_pos.2 (by nlinarith)).ne', Flt.fin_add]
  · rw [if_neg (show ¬ (fin r).gtc 1 from h1), if_neg h1]
    by_cases h2 : r < 1
    · rw [if_pos (show (fin r).ltc 1 from h2), if_pos h2]
      have hl : min r (1 - 1e-6) ≤ (1 - 1e-6 : ℝ) := min_le_right _ _
      have hp : 0 < min r (1 - 1e-6) := lt_min hr (by norm_num)
      generalize min r (1 - 1e-6) = w at hl hp
      have hw : w < 1 := by norm_num at hl; linarith
      rw [Flt.fin_div _ (by positivity), Flt.arccosh_fin (by rw [le_div_iff₀ hp]; linarith), Flt.fin_sq, Flt.fin_sub,
        Flt.sqrt_fin (by nlinarith), Flt.fin_div _ (sqrt_pos.2 (by nlinarith)).ne', Flt.fin_add]
    · rw [if_neg (show ¬ (fin r).ltc 1 from h2), if_neg h2, Flt.fin_add]

theorem nfwGFlt_eq {r : ℝ} (hr : 0 < r) : nfwGFlt (fin r) = fin (nfwG r) := by
  classical
  simp only [nfwGFlt, nfwG, Flt.clampMin, Flt.clampMax, gt_iff_lt]
  rw [Flt.fin_div _ two_ne_zero, Flt.log_fin (by positivity), Flt.fin_sq]
  by_cases h1 : 1 < r
  · rw [if_pos (show (fin r).gtc 1 from h1), if_pos h1]
    have hg : (1 + 1e-6 : ℝ) ≤ max r (1 + 1e-6) := le_max_right _ _
    generalize max r (1 + 1e-6) = w at hg
    have hw : 1 < w := by norm_num at hg; linarith
    rw [Flt.fin_div _ (by positivity), Flt.arccos_fin (by
      rw [abs_of_pos (by positivity), div_le_one (by positivity)]; exact hw.le), Flt.fin_sq, Flt.fin_add]
  · rw [if_neg (show ¬ (fin r).gtc 1 from h1), if_neg h1]
    by_cases h2 : r < 1
    · rw [if_pos (show (fin r).ltc 1 from h2), if_pos h2]
      have hl : min r (1 - 1e-6) ≤ (1 - 1e-6 : ℝ) := min_le_right _ _
      have hp : 0 < min r (1 - 1e-6) := lt_min hr (by norm_num)
      generalize min r (1 - 1e-6) = w at hl hp
      have hw : w < 1 := by norm_num at hl; linarith
      rw [Flt.fin_div _ (by positivity), Flt.arccosh_fin (by rw [le_div_iff₀ hp]; linarith), Flt.fin_sq, Flt.fin_neg,
        Flt.fin_add]
    · rw [if_neg (show ¬ (fin r).ltc 1 from h2), if_neg h2, Flt.fin_add]

theorem nfwFFlt_eq {r : ℝ} (hr : 0 < r) : nfwFFlt (fin r) = fin (nfwF r) := by
  classical
  simp only [nfwFFlt, nfwF, Flt.clampMin, Flt.clampMax, gt_iff_lt]
  by_cases h1 : 1 < r
  · rw [if_pos (show (fin r).gtc 1 from h1), if_pos h1]
    have hg : (1 + 1e-6 : ℝ) ≤ max r (1 + 1e-6) := le_max_right _ _
    generalize max r (1 + 1e-6) = w at hg
    have hw : 1 < w := by norm_num at hg; linarith
    rw [Flt.fin_sub, Flt.fin_add, Flt.fin_div _ (by positivity), Flt.sqrt_fin (div_nonneg (by linarith) (by linarith)),
      Flt.fin_sq, Flt.fin_sub, Flt.sqrt_fin (by nlinarith)]
    simp only [Flt.atan]
    rw [Flt.fin_mul, Flt.fin_div _ (sqrt_pos.2 (by nlinarith)).ne', Flt.fin_sub]
  · rw [if_neg (show ¬ (fin r).gtc 1 from h1), if_neg h1]
    by_cases h2 : r < 1
    · rw [if_pos (show (fin r).ltc 1 from h2), if_pos h2]
      have hl : min r (1 - 1e-6) ≤ (1 - 1e-6 : ℝ) := min_le_right _ _
      have hp : 0 < min r (1 - 1e-6) := lt_min hr (by norm_num)
      generalize min r (1 - 1e-6) = w at hl hp
      have hw : w < 1 := by norm_num at hl; linarith
      have hq : √((1 - w) / (1 + w)) < 1 := by
        rw [sqrt_lt' one_pos, one_pow, div_lt_one (by linarith)]
        linarith
      rw [Flt.fin_sub, Flt.fin_add, Flt.fin_div _ (by positivity), Flt.sqrt_fin (div_nonneg (by linarith) (by linarith)),
        Flt.fin_sq, Flt.fin_sub, Flt.sqrt_fin (by nlinarith)]
      simp only [Flt.atanh]
      rw [if_pos (by rwa [abs_of_nonneg (sqrt_nonneg _)]), Flt.fin_mul,
        Flt.fin_div _ (sqrt_pos.2 (by nlinarith)).ne', Flt.fin_sub]
    · rw [if_neg (show ¬ (fin r).ltc 1 from h2), if_neg h2]

theorem nfwHFlt_zero : nfwHFlt (fin 0) = Flt.nan := by
  classical
  simp only [nfwHFlt, Flt.clampMin, Flt.clampMax]
  have h1 : min (0 : ℝ) (1 - 1e-6) = 0 := min_eq_left (by norm_num)
  rw [if_neg (show ¬ (fin 0).gtc 1 from fun h : (1 : ℝ) < 0 => absurd h (by norm_num)),
    if_pos (show (fin 0).ltc 1 from zero_lt_one' ℝ), h1, Flt.fin_div _ two_ne_zero, zero_div, Flt.pos_div_zero one_pos, Flt.fin_sq,
    Flt.fin_sub, Flt.sqrt_fin (by norm_num)]
  have e : (√(1 - 0 ^ 2) : ℝ) = 1 := by norm_num
  have l : Flt.log (fin 0) = Flt.ninf := by simp [Flt.log]
  have d : Flt.arccosh Flt.pinf / fin 1 = Flt.pinf := by
    show (if (1 : ℝ) < 0 then Flt.ninf else Flt.pinf) = _
    rw [if_neg (by norm_num)]
  rw [e, l, d]
  rfl

theorem nfwGFlt_zero : nfwGFlt (fin 0) = Flt.nan := by
  classical
  simp only [nfwGFlt, Flt.clampMin, Flt.clampMax]
  have h1 : min (0 : ℝ) (1 - 1e-6) = 0 := min_eq_left (by norm_num)
  have l : Flt.log (fin 0) = Flt.ninf := by simp [Flt.log]
  rw [if_neg (show ¬ (fin 0).gtc 1 from fun h : (1 : ℝ) < 0 => absurd h (by norm_num)),
    if_pos (show (fin 0).ltc 1 from zero_lt_one' ℝ), h1, Flt.fin_div _ two_ne_zero, zero_div, Flt.pos_div_zero one_pos, l]
  rfl

theorem nfwFFlt_zero : nfwFFlt (fin 0) = Flt.ninf := by
  classical
  simp only [nfwFFlt, Flt.clampMin, Flt.clampMax]
  have h1 : min (0 : ℝ) (1 - 1e-6) = 0 := min_eq_left (by norm_num)
  rw [if_neg (show ¬ (fin 0).gtc 1 from fun h : (1 : ℝ) < 0 => absurd h (by norm_num)),
    if_pos (show (fin 0).ltc 1 from zero_lt_one' ℝ), h1, Flt.fin_sub, Flt.fin_add, Flt.fin_div _ (by norm_num), Flt.fin_sq,
    Flt.fin_sub, Flt.sqrt_fin (by norm_num), Flt.sqrt_fin (by norm_num)]
  have e : (√(1 - 0 ^ 2) : ℝ) = 1 := by norm_num
  have e2 : (√((1 - 0) / (1 + 0)) : ℝ) = 1 := by norm_num
  rw [e, e2]
  have a : Flt.atanh (fin 1) = Flt.pinf := by simp [Flt.atanh]
  have m : fin 2 * Flt.pinf = Flt.pinf := by
    show Flt.signed 2 = _
    rw [Flt.signed, if_pos (by norm_num)]
  have d : Flt.pinf / fin 1 = Flt.pinf := by
    show (if (1 : ℝ) < 0 then Flt.ninf else Flt.pinf) = _
    rw [if_neg (by norm_num)]
  rw [a, m, d]
  rfl

/-! ### Redshifts inside -/

section
variable {C : Cosmo} {zl zs z x y : ℝ}

theorem NFWPar.Valid.rs_pos {P : NFWPar} (h : P.Valid) : 0 < P.rs := by
  have h1 := h.mass
  have h2 := h.c
  have h3 := h.Delta
  have h4 := h.rhoc
  unfold NFWPar.rs nfwScaleRadius
  positivity

theorem NFWPar.th_pos {P : NFWPar} (h : P.Valid) (hx : (x, y) ≠ (P.x0, P.y0)) : 0 < P.th x y :=
  add_pos_of_pos_of_nonneg (off_centre hx) h.s

theorem NFWPar.xi_pos {P : NFWPar} (h : P.Valid) (hx : (x, y) ≠ (P.x0, P.y0)) (hC : C.Grows) (hl : 0 < zl) :
    0 < P.xi C zl x y :=
  mul_pos (mul_pos (hC.angular_pos hl) (NFWPar.th_pos h hx)) arcsecToRad_pos'

theorem nfw_physical_eq {P : NFWPar} (h : P.Valid) (hx : (x, y) ≠ (P.x0, P.y0)) (hC : C.Grows) (hl : 0 < zl) (zs : ℝ) :
    P.physicalFlt C zl x y
      = (fin ((P.toLens C zl zs).physicalDeflection x y).1, fin ((P.toLens C zl zs).physicalDeflection x y).2) := by
  have h1 := h.rs_pos
  have h2 := NFWPar.th_pos h hx
  have h3 := NFWPar.xi_pos h hx hC hl
  simp only [NFWPar.physicalFlt, NFW.physicalDeflection, translateRotate]
  rw [Flt.fin_div _ h1.ne', nfwHFlt_eq (div_pos h3 h1), Flt.fin_mul, Flt.fin_mul, Flt.fin_div _ h3.ne', Flt.fin_mul,
    Flt.fin_mul, Flt.fin_div _ h2.ne', Flt.fin_div _ h2.ne']
  rfl

theorem nfw_reduced_eq {P : NFWPar} (h : P.Valid) (hx : (x, y) ≠ (P.x0, P.y0)) (hC : C.Grows) (hl : 0 < zl) (hs : 0 < zs) :
    P.reducedFlt C zl zs x y
      = (fin ((P.toLens C zl zs).deflection x y).1, fin ((P.toLens C zl zs).deflection x y).2) := by
  rw [NFWPar.reducedFlt, nfw_physical_eq h hx hC hl zs]
  simp only [reducedFromPhysicalFlt]
  rw [Flt.fin_div _ (hC.angular_pos hs).ne', Flt.fin_mul, Flt.fin_mul]
  rfl

theorem nfw_convergence_eq {P : NFWPar} (h : P.Valid) (hx : (x, y) ≠ (P.x0, P.y0)) (hC : C.Grows) (hl : 0 < zl)
    (hr : P.xi C zl x y ≠ P.rs) {k : ℝ} (hk : P.kappaS C zl zs = fin k) :
    P.convergenceFlt C zl zs x y
      = fin (2 * k * nfwF (P.xi C zl x y / P.rs) / ((P.xi C zl x y / P.rs) ^ 2 - 1)) := by
  have h1 := h.rs_pos
  have h3 := div_pos (NFWPar.xi_pos h hx hC hl) h1
  have h4 : P.xi C zl x y / P.rs ≠ 1 := fun h => hr ((div_eq_one_iff_eq h1.ne').1 h)
  have h5 : (P.xi C zl x y / P.rs) ^ 2 - 1 ≠ 0 := by
    rw [sub_ne_zero]
    intro h
    have h6 : (P.xi C zl x y / P.rs - 1) * (P.xi C zl x y / P.rs + 1) = 0 := by linear_combination h
    rcases mul_eq_zero.1 h6 with h7 | h7
    · exact h4 (by linarith)
    · linarith
  simp only [NFWPar.convergenceFlt]
  rw [Flt.fin_div _ h1.ne', nfwFFlt_eq h3, hk, Flt.fin_mul, Flt.fin_mul, Flt.fin_sq, Flt.fin_sub, Flt.fin_div _ h5]

theorem nfw_potential_eq {P : NFWPar} (h : P.Valid) (hx : (x, y) ≠ (P.x0, P.y0)) (hC : C.Grows) (hl : 0 < zl)
    {k : ℝ} (hk : P.kappaS C zl zs = fin k) :
    P.potentialFlt C zl zs x y
      = fin (2 * k * nfwG (P.xi C zl x y / P.rs) * P.rs ^ 2 / (C.angular zl ^ 2 * arcsecToRad ^ 2)) := by
  have h1 := h.rs_pos
  have h3 := div_pos (NFWPar.xi_pos h hx hC hl) h1
  have h4 := hC.angular_pos hl
  have h5 := arcsecToRad_pos'
  simp only [NFWPar.potentialFlt]
  rw [Flt.fin_div _ h1.ne', nfwGFlt_eq h3, hk, Flt.fin_mul, Flt.fin_mul, Flt.fin_mul, Flt.fin_div _ (by positivity)]

theorem kappaS_eq (P : NFWPar) (hC : C.Grows) (hl : 0 < zl) (hz : zl < zs) :
    P.kappaS C zl zs = fin (P.rs * P.rhos / C.criticalSurfaceDensity zl zs) := by
  rw [NFWPar.kappaS, sigmaCrFlt_eq hC hl hz, Flt.fin_div _ (sigmaCr_pos hC hl hz).ne']

theorem kappaS_self (P : NFWPar) (hC : C.Grows) (hz : 0 < z) : P.kappaS C z z = fin 0 := by
  rw [NFWPar.kappaS, sigmaCrFlt_self hC hz, fin_div_pinf]

theorem pj_kappa0_eq {P : PJPar} (h : P.Valid) {d sig : ℝ} (hd : 0 < d) (hs : 0 < sig) :
    P.kappa0 d (fin sig) = fin (pjKappa0 P.mass P.Rc P.Rs d sig) := by
  have h1 := h.Rc
  have h2 := h1.trans h.Rs
  have h3 := arcsecToRad_pos'
  simp only [PJPar.kappa0, pjKappa0]
  rw [Flt.fin_mul, Flt.fin_mul, Flt.fin_mul, Flt.fin_mul, Flt.fin_div _ (by positivity)]

theorem pj_kappa0_inf {P : PJPar} (h : P.Valid) {d : ℝ} (hd : 0 < d) : P.kappa0 d Flt.pinf = fin 0 := by
  have h1 := h.Rc
  have h2 := h1.trans h.Rs
  have h3 := arcsecToRad_pos'
  have m : ∀ {a : ℝ}, 0 < a → Flt.pinf * fin a = Flt.pinf := fun ha => by
    show Flt.signed _ = _
    rw [Flt.signed, if_pos ha]
  have m' : fin (2 * π) * Flt.pinf = Flt.pinf := by
    show Flt.signed _ = _
    rw [Flt.signed, if_pos (by positivity)]
  simp only [PJPar.kappa0]
  rw [m', m h1, m h2, m (by positivity), fin_div_pinf]

theorem pj_reduced_of {P : PJPar} (h : P.Valid) (hx : (x, y) ≠ (P.x0, P.y0)) {k : ℝ}
    (hk : P.kappa0 (C.angular zl) (C.sigmaCrFlt zl zs) = fin k) :
    ∃ f, (∀ L : PJaffe, L.x0 = P.x0 → L.y0 = P.y0 → L.Rc = P.Rc → L.Rs = P.Rs → L.s = 0 →
        pjKappa0 L.mass L.Rc L.Rs L.d_l L.sigmacr = k →
        L.deflection x y = (k * f * (x - P.x0), k * f * (y - P.y0))) ∧
      P.reducedFlt C zl zs x y = (fin (k * f * (x - P.x0)), fin (k * f * (y - P.y0))) := by
  have h1 := off_centre hx
  have h2 : P.Rs - P.Rc ≠ 0 := (sub_pos.2 h.Rs).ne'
  set R := √((x - P.x0) ^ 2 + (y - P.y0) ^ 2) with hR
  refine ⟨2 * P.Rc * P.Rs / (P.Rs - P.Rc) *
    (R / P.Rc / (1 + √(1 + (R / P.Rc) ^ 2)) - R / (P.Rs * (1 + √(1 + (R / P.Rs) ^ 2)))) / R, ?_, ?_⟩
  · intro L a1 a2 a3 a4 a5 a6
    simp only [PJaffe.deflection, translateRotate, a1, a2, a5, add_zero, ← hR]
    rw [a6]
    simp only [a3, a4]
    generalize R / P.Rc / (1 + √(1 + (R / P.Rc) ^ 2)) - R / (P.Rs * (1 + √(1 + (R / P.Rs) ^ 2))) = f
    ext <;> field_simp
  · simp only [PJPar.reducedFlt, ← hR]
    rw [hk]
    generalize R / P.Rc / (1 + √(1 + (R / P.Rc) ^ 2)) - R / (P.Rs * (1 + √(1 + (R / P.Rs) ^ 2))) = f
    rw [Flt.fin_mul, Flt.fin_mul, Flt.fin_mul, Flt.fin_div _ h2, Flt.fin_mul, Flt.fin_mul, Flt.fin_mul,
      Flt.fin_div _ h1.ne', Flt.fin_div _ h1.ne']
    refine Prod.ext ?_ ?_
    · show fin _ = fin _
      congr 1
      field_simp
    · show fin _ = fin _
      congr 1
      field_simp

theorem pj_convergence_of {P : PJPar} (h : P.Valid) {k : ℝ}
    (hk : P.kappa0 (C.angular zl) (C.sigmaCrFlt zl zs) = fin k) (x y : ℝ) :
    P.convergenceFlt C zl zs x y = fin (k * P.Rc * P.Rs / (P.Rs - P.Rc) *
      (1 / √(P.Rc ^ 2 + ((x - P.x0) ^ 2 + (y - P.y0) ^ 2)) - 1 / √(P.Rs ^ 2 + ((x - P.x0) ^ 2 + (y - P.y0) ^ 2)))) := by
  have h2 : P.Rs - P.Rc ≠ 0 := (sub_pos.2 h.Rs).ne'
  simp only [PJPar.convergenceFlt]
  rw [hk, Flt.fin_mul, Flt.fin_mul, Flt.fin_div _ h2, Flt.fin_mul]

theorem pj_potential_eq {P : PJPar} (h : P.Valid) (hC : C.Grows) (hl : 0 < zl) (hs : 0 < zs) (x y : ℝ) :
    P.potentialFlt C zl zs x y = fin ((P.toLens C zl zs).potential x y) := by
  have h2 : P.Rs - P.Rc ≠ 0 := (sub_pos.2 h.Rs).ne'
  simp only [PJPar.potentialFlt, PJaffe.potential, translateRotate]
  rw [pj_kappa0_eq h (hC.angular_pos hl) one_pos, Flt.fin_div _ (hC.angular_pos hs).ne', Flt.fin_mul, Flt.fin_mul,
    Flt.fin_mul, Flt.fin_mul, Flt.fin_div _ h2, Flt.fin_neg, Flt.fin_mul]
  simp only [PJPar.toLens, add_zero]

theorem PointMass.th_pos {P : PointMass} (h : P.Valid) (hx : (x, y) ≠ (P.x0, P.y0)) : 0 < P.th x y :=
  add_pos_of_pos_of_nonneg (off_centre hx) h.s

theorem rein_eq {P : PointMass} (h : P.Valid) (hC : C.Grows) (hl : 0 < zl) (hz : zl ≤ zs) :
    P.rein C zl zs
      = fin (massToReinPoint C.GOverC2 P.mass (C.angular12 zl zs) (C.angular zl) (C.angular zs)) := by
  have h1 := hC.angular_pos hl
  have h2 := hC.angular_pos (hl.trans_le hz)
  have h3 : 0 ≤ C.angular12 zl zs := by
    rcases hz.eq_or_lt with e | e
    · rw [e, angular12_self]
    · exact (hC.angular12_pos hl.le e).le
  have h4 := hC.grav
  have h5 := h.mass
  simp only [PointMass.rein, massToReinPoint]
  rw [Flt.fin_div _ (by positivity), Flt.sqrt_fin (by positivity), Flt.fin_mul]

theorem point_reduced_eq {P : PointMass} (h : P.Valid) (hx : (x, y) ≠ (P.x0, P.y0)) {R : ℝ}
    (hR : P.rein C zl zs = fin R) :
    P.reducedFlt C zl zs x y
      = (fin (pointDeflection P.x0 P.y0 R P.s x y).1, fin (pointDeflection P.x0 P.y0 R P.s x y).2) := by
  have h1 := PointMass.th_pos h hx
  simp only [PointMass.reducedFlt, pointDeflection, translateRotate]
  rw [hR, Flt.fin_sq, Flt.fin_sq, Flt.fin_mul, Flt.fin_mul, Flt.fin_div _ (by positivity), Flt.fin_div _ (by positivity)]
  rfl

theorem point_potential_eq {P : PointMass} (h : P.Valid) (hx : (x, y) ≠ (P.x0, P.y0)) {R : ℝ}
    (hR : P.rein C zl zs = fin R) :
    P.potentialFlt C zl zs x y = fin (pointPotential P.x0 P.y0 R P.s x y) := by
  have h1 := PointMass.th_pos h hx
  simp only [PointMass.potentialFlt, pointPotential, translateRotate]
  rw [hR, Flt.fin_sq, Flt.log_fin h1, Flt.fin_mul]
  rfl

theorem inf_mul_zero : Flt.pinf * fin 0 = Flt.nan := by
  show Flt.signed 0 = _
  simp [Flt.signed]

theorem inf_mul_pos {a : ℝ} (ha : 0 < a) : Flt.pinf * fin a = Flt.pinf := by
  show Flt.signed _ = _
  rw [Flt.signed, if_pos ha]

theorem inf_div_pos {a : ℝ} (ha : 0 < a) : Flt.pinf / fin a = Flt.pinf := by
  show (if a < 0 then Flt.ninf else Flt.pinf) = _
  rw [if_neg ha.le.not_gt]

theorem days_eq (hC : C.Grows) {c day : ℝ} (hc : 0 < c) (hd : 0 < day) (hl : 0 ≤ zl) (hz : zl < zs) :
    arcsec2ToDaysFlt C c day zl zs
      = fin ((1 + zl) / c * C.angular zs * C.angular zl / C.angular12 zl zs * arcsecToRad ^ 2 / day) := by
  have h3 := hC.angular12_pos hl hz
  rw [arcsec2ToDaysFlt, Flt.fin_div _ hc.ne', Flt.fin_mul, Flt.fin_mul, Flt.fin_div _ h3.ne', Flt.fin_mul, Flt.fin_div _ hd.ne']

theorem days_self (hC : C.Grows) {c day : ℝ} (hc : 0 < c) (hd : 0 < day) (hz : 0 < z) :
    arcsec2ToDaysFlt C c day z z = Flt.pinf := by
  have h1 := hC.angular_pos hz
  have h2 := arcsecToRad_pos'
  rw [arcsec2ToDaysFlt, angular12_self, Flt.fin_div _ hc.ne', Flt.fin_mul, Flt.fin_mul, Flt.pos_div_zero (by positivity),
    inf_mul_pos (by positivity), inf_div_pos hd]

theorem delay_self (hC : C.Grows) {c day : ℝ} (hc : 0 < c) (hd : 0 < day) (hz : 0 < z) (shapiro geometric : Bool) :
    thinDelayFlt C c day z z shapiro geometric (fin 0) (fin 0, fin 0) = Flt.nan := by
  simp only [thinDelayFlt]
  rw [days_self hC hc hd hz, Flt.fin_sq, Flt.fin_add, Flt.fin_mul, Flt.fin_sub]
  cases shapiro <;> cases geometric <;> simp [Flt.fin_add, inf_mul_zero]

/-! ### C146 -/

/-- What holds: with the source behind the lens, and neither at the observer, the methods return the numbers of
`Model/Lenses.lean`. -/
theorem C146_numbers_partial (hC : C.Grows) (hl : 0 < zl) (hz : zl < zs) :
    (∀ P : NFWPar, P.Valid → (x, y) ≠ (P.x0, P.y0) → P.xi C zl x y ≠ P.rs →
      P.physicalFlt C zl x y
        = (fin ((P.toLens C zl zs).physicalDeflection x y).1, fin ((P.toLens C zl zs).physicalDeflection x y).2) ∧
      P.reducedFlt C zl zs x y
        = (fin ((P.toLens C zl zs).deflection x y).1, fin ((P.toLens C zl zs).deflection x y).2) ∧
      (∃ v, (P.toLens C zl zs).convergence x y = some v ∧ P.convergenceFlt C zl zs x y = fin v) ∧
      P.potentialFlt C zl zs x y = fin ((P.toLens C zl zs).potential x y)) ∧
    (∀ P : PJPar, P.Valid → (x, y) ≠ (P.x0, P.y0) →
      P.reducedFlt C zl zs x y
        = (fin ((P.toLens C zl zs).deflection x y).1, fin ((P.toLens C zl zs).deflection x y).2) ∧
      P.convergenceFlt C zl zs x y = fin ((P.toLens C zl zs).convergence x y) ∧
      P.potentialFlt C zl zs x y = fin ((P.toLens C zl zs).potential x y)) ∧
    (∀ P : PointMass, P.Valid → (x, y) ≠ (P.x0, P.y0) →
      ∃ R, R = massToReinPoint C.GOverC2 P.mass (C.angular12 zl zs) (C.angular zl) (C.angular zs) ∧
        P.reducedFlt C zl zs x y
          = (fin (pointDeflection P.x0 P.y0 R P.s x y).1, fin (pointDeflection P.x0 P.y0 R P.s x y).2) ∧
        P.potentialFlt C zl zs x y = fin (pointPotential P.x0 P.y0 R P.s x y)) := by
  refine ⟨fun P h hx hr => ⟨nfw_physical_eq h hx hC hl zs, nfw_reduced_eq h hx hC hl (hl.trans hz), ?_, ?_⟩,
    fun P h hx => ⟨?_, ?_, pj_potential_eq h hC hl (hl.trans hz) x y⟩,
    fun P h hx => ⟨_, rfl, point_reduced_eq h hx (rein_eq h hC hl hz.le), point_potential_eq h hx (rein_eq h hC hl hz.le)⟩⟩
  · have h1 := h.rs_pos
    have h3 := div_pos (NFWPar.xi_pos h hx hC hl) h1
    have h4 : P.xi C zl x y / P.rs ≠ 1 := fun h => hr ((div_eq_one_iff_eq h1.ne').1 h)
    refine ⟨_, ?_, nfw_convergence_eq h hx hC hl hr (kappaS_eq P hC hl hz)⟩
    simp only [NFW.convergence, translateRotate, divOpt]
    refine if_neg fun h5 => ?_
    have h5 : (P.xi C zl x y / P.rs) ^ 2 - 1 = 0 := h5
    have h6 : (P.xi C zl x y / P.rs - 1) * (P.xi C zl x y / P.rs + 1) = 0 := by linear_combination h5
    rcases mul_eq_zero.1 h6 with h7 | h7
    · exact h4 (by linarith)
    · linarith
  · exact nfw_potential_eq h hx hC hl (kappaS_eq P hC hl hz)
  · obtain ⟨f, h1, h2⟩ := pj_reduced_of (zl := zl) (zs := zs) (C := C) h hx
      ((congrArg _ (sigmaCrFlt_eq hC hl hz)).trans (pj_kappa0_eq h (hC.angular_pos hl) (sigmaCr_pos hC hl hz)))
    rw [h2, h1 (P.toLens C zl zs) rfl rfl rfl rfl rfl rfl]
  · rw [pj_convergence_of h
      ((congrArg _ (sigmaCrFlt_eq hC hl hz)).trans (pj_kappa0_eq h (hC.angular_pos hl) (sigmaCr_pos hC hl hz)))]
    simp [PJaffe.convergence, PJPar.toLens, translateRotate]

/-- A source at the redshift of the lens: no deflection, no convergence, no potential, every ray goes straight on. -/
theorem C146_same_redshift_partial (hC : C.Grows) (hz : 0 < z) :
    (∀ P : NFWPar, P.Valid → (x, y) ≠ (P.x0, P.y0) →
      P.reducedFlt C z z x y = (fin 0, fin 0) ∧ raytraceFlt (P.reducedFlt C z z x y) x y = (fin x, fin y) ∧
      (P.xi C z x y ≠ P.rs → P.convergenceFlt C z z x y = fin 0) ∧ P.potentialFlt C z z x y = fin 0) ∧
    (∀ P : PJPar, P.Valid → (x, y) ≠ (P.x0, P.y0) →
      P.reducedFlt C z z x y = (fin 0, fin 0) ∧ raytraceFlt (P.reducedFlt C z z x y) x y = (fin x, fin y) ∧
      P.convergenceFlt C z z x y = fin 0 ∧ P.potentialFlt C z z x y = fin 0) ∧
    (∀ P : PointMass, P.Valid → (x, y) ≠ (P.x0, P.y0) →
      P.reducedFlt C z z x y = (fin 0, fin 0) ∧ raytraceFlt (P.reducedFlt C z z x y) x y = (fin x, fin y) ∧
      P.potentialFlt C z z x y = fin 0) := by
  have hray : raytraceFlt (fin 0, fin 0) x y = (fin x, fin y) := by
    simp only [raytraceFlt, Flt.fin_sub, sub_zero]
  refine ⟨fun P h hx => ?_, fun P h hx => ?_, fun P h hx => ?_⟩
  · have e : P.reducedFlt C z z x y = (fin 0, fin 0) := by
      rw [nfw_reduced_eq h hx hC hz hz]
      simp [NFW.deflection, NFWPar.toLens, angular12_self]
    refine ⟨e, by rw [e, hray], fun hr => ?_, ?_⟩
    · rw [nfw_convergence_eq h hx hC hz hr (kappaS_self P hC hz)]; simp
    · rw [nfw_potential_eq h hx hC hz (kappaS_self P hC hz)]; simp
  · have hk : P.kappa0 (C.angular z) (C.sigmaCrFlt z z) = fin 0 := by
      rw [sigmaCrFlt_self hC hz, pj_kappa0_inf h (hC.angular_pos hz)]
    have e : P.reducedFlt C z z x y = (fin 0, fin 0) := by
      obtain ⟨f, -, h2⟩ := pj_reduced_of h hx hk
      rw [h2]; simp
    refine ⟨e, by rw [e, hray], ?_, ?_⟩
    · rw [pj_convergence_of h hk]; simp
    · rw [pj_potential_eq h hC hz hz]
      simp [PJaffe.potential, PJPar.toLens, angular12_self]
  · have hR : P.rein C z z = fin 0 := by
      rw [rein_eq h hC hz le_rfl]
      simp [massToReinPoint, angular12_self]
    have e : P.reducedFlt C z z x y = (fin 0, fin 0) := by
      rw [point_reduced_eq h hx hR]
      simp [pointDeflection]
    refine ⟨e, by rw [e, hray], ?_⟩
    rw [point_potential_eq h hx hR]
    simp [pointPotential]

/-- Three quantities do not depend on the source at all: the angle by which the mass bends light, its surface density, and
the delay its potential causes. -/
theorem C146_source_independent (hC : C.Grows) (hl : 0 < zl) {c day : ℝ} (hc : 0 < c) (hd : 0 < day) :
    (∀ P : NFWPar, P.Valid → (x, y) ≠ (P.x0, P.y0) → P.xi C zl x y ≠ P.rs → ∃ v w, ∀ zs, zl < zs →
      surfaceDensityFlt C zl zs (P.convergenceFlt C zl zs x y) = fin v ∧
      thinDelayFlt C c day zl zs true false (P.potentialFlt C zl zs x y) (P.reducedFlt C zl zs x y) = fin w) ∧
    (∀ P : PJPar, P.Valid → (x, y) ≠ (P.x0, P.y0) → ∃ a v w, ∀ zs, zl < zs →
      P.physicalFlt C zl zs x y = (fin (a * (x - P.x0)), fin (a * (y - P.y0))) ∧
      surfaceDensityFlt C zl zs (P.convergenceFlt C zl zs x y) = fin v ∧
      thinDelayFlt C c day zl zs true false (P.potentialFlt C zl zs x y) (P.reducedFlt C zl zs x y) = fin w) ∧
    (∀ P : PointMass, P.Valid → (x, y) ≠ (P.x0, P.y0) → ∃ w, ∀ zs, zl < zs →
      P.physicalFlt C zl zs x y
        = (fin (radToArcsec ^ 2 * (4 * C.GOverC2 * P.mass / C.angular zl) / P.th x y ^ 2 * (x - P.x0)),
          fin (radToArcsec ^ 2 * (4 * C.GOverC2 * P.mass / C.angular zl) / P.th x y ^ 2 * (y - P.y0))) ∧
      thinDelayFlt C c day zl zs true false (P.potentialFlt C zl zs x y) (P.reducedFlt C zl zs x y) = fin w) := by
  have h1 := hC.angular_pos hl
  have hG := hC.grav
  have ha := arcsecToRad_pos'
  have hr' := radToArcsec_pos'
  have hpi := pi_pos
  refine ⟨fun P h hx hr => ?_, fun P h hx => ?_, fun P h hx => ?_⟩
  · refine ⟨2 * (P.rs * P.rhos) * nfwF (P.xi C zl x y / P.rs) / ((P.xi C zl x y / P.rs) ^ 2 - 1),
      (1 + zl) / c * C.angular zl * arcsecToRad ^ 2 / day * (0 - 2 * (P.rs * P.rhos) * (4 * π * C.GOverC2 * C.angular zl)
        * nfwG (P.xi C zl x y / P.rs) * P.rs ^ 2 / (C.angular zl ^ 2 * arcsecToRad ^ 2)), fun zs hz => ⟨?_, ?_⟩⟩
    · have h2 := sigmaCr_pos hC hl hz
      rw [surfaceDensityFlt, nfw_convergence_eq h hx hC hl hr (kappaS_eq P hC hl hz), sigmaCrFlt_eq hC hl hz, Flt.fin_mul]
      generalize (P.xi C zl x y / P.rs) ^ 2 - 1 = w
      congr 1
      field_simp
    · have h2 := hC.angular_pos (hl.trans hz)
      have h3 := hC.angular12_pos hl.le hz
      simp only [thinDelayFlt, if_true, Bool.false_eq_true, if_false]
      rw [days_eq hC hc hd hl.le hz, nfw_potential_eq h hx hC hl (kappaS_eq P hC hl hz), Flt.fin_sub, Flt.fin_mul]
      congr 1
      simp only [Cosmo.criticalSurfaceDensity]
      field_simp
      ring
  · have hRc := h.Rc
    have hRs := hRc.trans h.Rs
    have hd' : P.Rs - P.Rc ≠ 0 := (sub_pos.2 h.Rs).ne'
    have hk : ∀ zs, zl < zs → P.kappa0 (C.angular zl) (C.sigmaCrFlt zl zs)
        = fin (pjKappa0 P.mass P.Rc P.Rs (C.angular zl) (C.criticalSurfaceDensity zl zs)) := fun zs hz =>
      (congrArg _ (sigmaCrFlt_eq hC hl hz)).trans (pj_kappa0_eq h h1 (sigmaCr_pos hC hl hz))
    have hf : ∃ f, ∀ zs, zl < zs → P.reducedFlt C zl zs x y
        = (fin (pjKappa0 P.mass P.Rc P.Rs (C.angular zl) (C.criticalSurfaceDensity zl zs) * f * (x - P.x0)),
          fin (pjKappa0 P.mass P.Rc P.Rs (C.angular zl) (C.criticalSurfaceDensity zl zs) * f * (y - P.y0))) := by
      have hR := off_centre hx
      refine ⟨2 * P.Rc * P.Rs / (P.Rs - P.Rc) *
        (√((x - P.x0) ^ 2 + (y - P.y0) ^ 2) / P.Rc / (1 + √(1 + (√((x - P.x0) ^ 2 + (y - P.y0) ^ 2) / P.Rc) ^ 2))
          - √((x - P.x0) ^ 2 + (y - P.y0) ^ 2) / (P.Rs * (1 + √(1 + (√((x - P.x0) ^ 2 + (y - P.y0) ^ 2) / P.Rs) ^ 2))))
        / √((x - P.x0) ^ 2 + (y - P.y0) ^ 2), fun zs hz => ?_⟩
      rw [(C146_numbers_partial hC hl hz).2.1 P h hx |>.1]
      simp only [PJaffe.deflection, translateRotate, PJPar.toLens, add_zero]
      generalize √((x - P.x0) ^ 2 + (y - P.y0) ^ 2) = R at hR
      generalize R / P.Rc / (1 + √(1 + (R / P.Rc) ^ 2)) - R / (P.Rs * (1 + √(1 + (R / P.Rs) ^ 2))) = f
      refine Prod.ext ?_ ?_
      · show fin _ = fin _
        congr 1
        field_simp
      · show fin _ = fin _
        congr 1
        field_simp
    obtain ⟨f, hf⟩ := hf
    refine ⟨P.mass / (2 * π * P.Rc * P.Rs * (C.angular zl * arcsecToRad) ^ 2) * (4 * π * C.GOverC2 * C.angular zl) * f,
      P.mass / (2 * π * P.Rc * P.Rs * (C.angular zl * arcsecToRad) ^ 2) * P.Rc * P.Rs / (P.Rs - P.Rc) *
      (1 / √(P.Rc ^ 2 + ((x - P.x0) ^ 2 + (y - P.y0) ^ 2)) - 1 / √(P.Rs ^ 2 + ((x - P.x0) ^ 2 + (y - P.y0) ^ 2))),
      (1 + zl) / c * C.angular zl * arcsecToRad ^ 2 / day * (8 * π * C.GOverC2 *
        pjKappa0 P.mass P.Rc P.Rs (C.angular zl) 1 * C.angular zl * P.Rc * P.Rs / (P.Rs - P.Rc) *
        (√(P.Rs ^ 2 + ((x - P.x0) ^ 2 + (y - P.y0) ^ 2)) - √(P.Rc ^ 2 + ((x - P.x0) ^ 2 + (y - P.y0) ^ 2))
          + P.Rc * log (P.Rc + √(P.Rc ^ 2 + ((x - P.x0) ^ 2 + (y - P.y0) ^ 2)))
          - P.Rs * log (P.Rs + √(P.Rs ^ 2 + ((x - P.x0) ^ 2 + (y - P.y0) ^ 2))))), fun zs hz => ⟨?_, ?_, ?_⟩⟩
    · have h2 := hC.angular_pos (hl.trans hz)
      have h3 := hC.angular12_pos hl.le hz
      rw [PJPar.physicalFlt, hf zs hz]
      simp only [physicalFromReducedFlt]
      rw [Flt.fin_div _ h3.ne', Flt.fin_mul, Flt.fin_mul]
      simp only [pjKappa0, Cosmo.criticalSurfaceDensity]
      refine Prod.ext ?_ ?_
      · show fin _ = fin _
        congr 1
        field_simp
      · show fin _ = fin _
        congr 1
        field_simp
    · have h2 := sigmaCr_pos hC hl hz
      rw [surfaceDensityFlt, pj_convergence_of h (hk zs hz), sigmaCrFlt_eq hC hl hz, Flt.fin_mul]
      simp only [pjKappa0]
      generalize 1 / √(P.Rc ^ 2 + ((x - P.x0) ^ 2 + (y - P.y0) ^ 2)) - 1 / √(P.Rs ^ 2 + ((x - P.x0) ^ 2 + (y - P.y0) ^ 2)) = u
      congr 1
      field_simp
    · have h2 := hC.angular_pos (hl.trans hz)
      have h3 := hC.angular12_pos hl.le hz
      simp only [thinDelayFlt, if_true, Bool.false_eq_true, if_false]
      rw [days_eq hC hc hd hl.le hz, pj_potential_eq h hC hl (hl.trans hz), Flt.fin_sub, Flt.fin_mul]
      simp only [PJaffe.potential, PJPar.toLens, translateRotate, add_zero]
      generalize (√(P.Rs ^ 2 + ((x - P.x0) ^ 2 + (y - P.y0) ^ 2)) - √(P.Rc ^ 2 + ((x - P.x0) ^ 2 + (y - P.y0) ^ 2))
          + P.Rc * log (P.Rc + √(P.Rc ^ 2 + ((x - P.x0) ^ 2 + (y - P.y0) ^ 2)))
          - P.Rs * log (P.Rs + √(P.Rs ^ 2 + ((x - P.x0) ^ 2 + (y - P.y0) ^ 2)))) = u
      generalize pjKappa0 P.mass P.Rc P.Rs (C.angular zl) 1 = k
      congr 1
      field_simp
      ring
  · have h4 := h.mass
    have h5 := PointMass.th_pos h hx
    refine ⟨(1 + zl) / c * C.angular zl * arcsecToRad ^ 2 / day * (0 - radToArcsec ^ 2 * (4 * C.GOverC2 * P.mass / C.angular zl)
      * log (P.th x y)), fun zs hz => ?_⟩
    have h2 := hC.angular_pos (hl.trans hz)
    have h3 := hC.angular12_pos hl.le hz
    have hR : massToReinPoint C.GOverC2 P.mass (C.angular12 zl zs) (C.angular zl) (C.angular zs) ^ 2
        = radToArcsec ^ 2 * (4 * C.GOverC2 * P.mass * C.angular12 zl zs / (C.angular zl * C.angular zs)) := by
      rw [massToReinPoint, mul_pow, sq_sqrt (by positivity)]
    constructor
    · rw [PointMass.physicalFlt, point_reduced_eq h hx (rein_eq h hC hl hz.le)]
      simp only [physicalFromReducedFlt, pointDeflection, translateRotate]
      rw [Flt.fin_div _ h3.ne', Flt.fin_mul, Flt.fin_mul, hR]
      have e : √((x - P.x0) ^ 2 + (y - P.y0) ^ 2) + P.s = P.th x y := rfl
      rw [e]
      refine Prod.ext ?_ ?_
      · show fin _ = fin _
        congr 1
        field_simp
      · show fin _ = fin _
        congr 1
        field_simp
    · simp only [thinDelayFlt, if_true, Bool.false_eq_true, if_false]
      rw [days_eq hC hc hd hl.le hz, point_potential_eq h hx (rein_eq h hC hl hz.le), Flt.fin_sub, Flt.fin_mul]
      simp only [pointPotential, translateRotate]
      rw [hR]
      have e : √((x - P.x0) ^ 2 + (y - P.y0) ^ 2) + P.s = P.th x y := rfl
      rw [e]
      congr 1
      field_simp
      ring

/-- With the source at the redshift of the lens the same three quantities are NaN: the surface density and the delay of
every lens, and the physical deflection of those whose class does not define it itself. -/
theorem C146_same_redshift_fails (hC : C.Grows) (hz : 0 < z) {c day : ℝ} (hc : 0 < c) (hd : 0 < day)
    (shapiro geometric : Bool) :
    (∀ P : NFWPar, P.Valid → (x, y) ≠ (P.x0, P.y0) → P.xi C z x y ≠ P.rs →
      surfaceDensityFlt C z z (P.convergenceFlt C z z x y) = Flt.nan ∧
      thinDelayFlt C c day z z shapiro geometric (P.potentialFlt C z z x y) (P.reducedFlt C z z x y) = Flt.nan) ∧
    (∀ P : PJPar, P.Valid → (x, y) ≠ (P.x0, P.y0) →
      P.physicalFlt C z z x y = (Flt.nan, Flt.nan) ∧
      surfaceDensityFlt C z z (P.convergenceFlt C z z x y) = Flt.nan ∧
      thinDelayFlt C c day z z shapiro geometric (P.potentialFlt C z z x y) (P.reducedFlt C z z x y) = Flt.nan) ∧
    (∀ P : PointMass, P.Valid → (x, y) ≠ (P.x0, P.y0) →
      P.physicalFlt C z z x y = (Flt.nan, Flt.nan) ∧
      thinDelayFlt C c day z z shapiro geometric (P.potentialFlt C z z x y) (P.reducedFlt C z z x y) = Flt.nan) := by
  obtain ⟨a1, a2, a3⟩ := C146_same_redshift_partial (x := x) (y := y) hC hz
  have hs : surfaceDensityFlt C z z (fin 0) = Flt.nan := by
    rw [surfaceDensityFlt, sigmaCrFlt_self hC hz, Flt.zero_mul_pinf]
  have hp : physicalFromReducedFlt (fin 0, fin 0) (C.angular z) (C.angular12 z z) = (Flt.nan, Flt.nan) := by
    rw [physicalFromReducedFlt, angular12_self, Flt.pos_div_zero (hC.angular_pos hz), inf_mul_zero]
  refine ⟨fun P h hx hr => ?_, fun P h hx => ?_, fun P h hx => ?_⟩
  · obtain ⟨b1, -, b2, b3⟩ := a1 P h hx
    rw [b1, b2 hr, b3]
    exact ⟨hs, delay_self hC hc hd hz _ _⟩
  · obtain ⟨b1, -, b2, b3⟩ := a2 P h hx
    rw [PJPar.physicalFlt, b1, b2, b3]
    exact ⟨hp, hs, delay_self hC hc hd hz _ _⟩
  · obtain ⟨b1, -, b3⟩ := a3 P h hx
    rw [PointMass.physicalFlt, b1, b3]
    exact ⟨hp, delay_self hC hc hd hz _ _⟩

/-- A lens at redshift zero: NaN everywhere for NFW and pseudo-Jaffe, infinite or NaN for a point mass. -/
theorem C146_redshift_zero_fails (hC : C.Grows) (hz : 0 < zs) :
    (∀ P : NFWPar, P.Valid →
      P.physicalFlt C 0 x y = (Flt.nan, Flt.nan) ∧ P.reducedFlt C 0 zs x y = (Flt.nan, Flt.nan) ∧
      P.convergenceFlt C 0 zs x y = Flt.nan ∧ P.potentialFlt C 0 zs x y = Flt.nan) ∧
    (∀ P : PJPar, P.Valid →
      P.reducedFlt C 0 zs x y = (Flt.nan, Flt.nan) ∧ P.convergenceFlt C 0 zs x y = Flt.nan ∧
      P.potentialFlt C 0 zs x y = Flt.nan) ∧
    (∀ P : PointMass, P.Valid → (x, y) ≠ (P.x0, P.y0) →
      P.reducedFlt C 0 zs x y = (Flt.signed (x - P.x0), Flt.signed (y - P.y0))) := by
  have h0 := hC.angular_zero
  have hs := hC.angular_pos hz
  refine ⟨fun P h => ?_, fun P h => ?_, fun P h hx => ?_⟩
  · have h1 := h.rs_pos
    have hxi : P.xi C 0 x y = 0 := by simp [NFWPar.xi, h0]
    have hk : P.kappaS C 0 zs = fin 0 := by rw [NFWPar.kappaS, sigmaCrFlt_zero hC hz, fin_div_pinf]
    have hph : P.physicalFlt C 0 x y = (Flt.nan, Flt.nan) := by
      simp only [NFWPar.physicalFlt, hxi]
      rw [Flt.fin_div _ h1.ne', zero_div, nfwHFlt_zero]
      simp
    refine ⟨hph, ?_, ?_, ?_⟩
    · rw [NFWPar.reducedFlt, hph, reducedFromPhysicalFlt]
      simp
    · simp only [NFWPar.convergenceFlt, hxi]
      have m : fin 0 * Flt.ninf = Flt.nan := by
        show Flt.signed (-0) = _
        simp [Flt.signed]
      rw [Flt.fin_div _ h1.ne', zero_div, nfwFFlt_zero, hk, Flt.fin_mul, mul_zero, m, Flt.nan_div]
    · simp only [NFWPar.potentialFlt, hxi]
      rw [Flt.fin_div _ h1.ne', zero_div, nfwGFlt_zero]
      simp
  · have hR := h.Rc
    have hR' := hR.trans h.Rs
    have hd : 0 < P.Rs - P.Rc := sub_pos.2 h.Rs
    have hk : P.kappa0 (C.angular 0) (C.sigmaCrFlt 0 zs) = Flt.nan := by
      have m' : fin (2 * π) * Flt.pinf = Flt.pinf := by
        show Flt.signed _ = _
        rw [Flt.signed, if_pos (by positivity)]
      rw [PJPar.kappa0, sigmaCrFlt_zero hC hz, m', inf_mul_pos hR, inf_mul_pos hR', h0, zero_mul, zero_pow two_ne_zero,
        inf_mul_zero, Flt.div_nan]
    refine ⟨?_, ?_, ?_⟩
    · simp only [PJPar.reducedFlt, hk]
      simp
    · simp only [PJPar.convergenceFlt, hk]
      simp
    · have hk1 : P.kappa0 (C.angular 0) (fin 1) = Flt.pinf := by
        rw [PJPar.kappa0, h0, zero_mul, zero_pow two_ne_zero, Flt.fin_mul, Flt.fin_mul, Flt.fin_mul, Flt.fin_mul, mul_zero,
          Flt.pos_div_zero h.mass]
      have m : fin (8 * π * C.GOverC2) * Flt.pinf = Flt.pinf := by
        show Flt.signed _ = _
        rw [Flt.signed, if_pos (by have := hC.grav; positivity)]
      simp only [PJPar.potentialFlt, hk1]
      rw [m, h0, zero_mul, Flt.fin_div _ hs.ne', zero_div, inf_mul_zero]
      simp only [Flt.nan_mul, Flt.nan_div]
      show Flt.nan * _ = _
      simp
  · have h1 := PointMass.th_pos h hx
    have h2 := hC.angular12_pos le_rfl hz
    have hG := hC.grav
    have hm := h.mass
    have hR : P.rein C 0 zs = Flt.pinf := by
      rw [PointMass.rein, h0, zero_mul, Flt.pos_div_zero (by positivity)]
      show Flt.signed _ = _
      rw [Flt.signed, if_pos radToArcsec_pos']
    have m : ∀ a : ℝ, fin a * Flt.sq Flt.pinf / Flt.sq (fin (P.th x y)) = Flt.signed a := fun a => by
      rw [Flt.fin_sq]
      have hp : 0 < P.th x y ^ 2 := by positivity
      show Flt.signed a / fin _ = _
      unfold Flt.signed
      split_ifs
      · exact inf_div_pos hp
      · show (if P.th x y ^ 2 < 0 then Flt.pinf else Flt.ninf) = _
        rw [if_neg hp.le.not_gt]
      · exact Flt.nan_div _
    simp only [PointMass.reducedFlt, hR, m]

end

/-- An expanding universe to try things in. -/
noncomputable def linearCosmo : Cosmo := ⟨fun z => z, fun z => z, 1⟩

theorem linearCosmo_grows : linearCosmo.Grows := ⟨rfl, strictMono_id.strictMonoOn _, one_pos⟩

theorem C146_fails : ¬ C146_statement := fun h => by
  have h1 := (h linearCosmo 1 1 1 1 1 0 linearCosmo_grows one_pos one_pos zero_le_one le_rfl one_pos).2.1
    ⟨0, 0, 1, 1, 2⟩ ⟨one_pos, one_pos, one_lt_two⟩ (by simp)
  have h2 := (C146_same_redshift_fails (x := 1) (y := 0) linearCosmo_grows one_pos one_pos one_pos true true).2.1
    ⟨0, 0, 1, 1, 2⟩ ⟨one_pos, one_pos, one_lt_two⟩ (by simp)
  have h3 := h1.1.1
  rw [h2.1] at h3
  exact Flt.not_isFin_nan h3

/-- FlatLambdaCDM (FlatLambdaCDM.py:156-180) is of this kind if its tabulated function increases. -/
theorem flatLambda_grows (f : FlatLambda) {G : ℝ} (hG : 0 < G) (h0 : 0 < f.h0) (hc : 0 < f.cMpcS) (hk : 0 < f.kmToMpc)
    (hO : 0 < f.Om0) (hO1 : f.Om0 < 1) (hm : StrictMonoOn f.helper (Set.Ici 0)) : (f.cosmo G).Grows := by
  have hr : 0 < (f.Om0 / (1 - f.Om0)) ^ (1 / 3 : ℝ) := rpow_pos_of_pos (div_pos hO (by linarith)) _
  have hD : 0 < f.hubbleDistance := by unfold FlatLambda.hubbleDistance; positivity
  have hE : 0 < f.Om0 ^ (1 / 3 : ℝ) * (1 - f.Om0) ^ (1 / 6 : ℝ) :=
    mul_pos (rpow_pos_of_pos hO _) (rpow_pos_of_pos (by linarith) _)
  refine ⟨by simp [FlatLambda.cosmo, FlatLambda.comovingDistance], fun a ha b hb hab => ?_, hG⟩
  have ha : 0 ≤ a := ha
  have hb : 0 ≤ b := hb
  have := hm (Set.mem_Ici.2 (by positivity : 0 ≤ (1 + a) * (f.Om0 / (1 - f.Om0)) ^ (1 / 3 : ℝ)))
    (Set.mem_Ici.2 (by positivity : 0 ≤ (1 + b) * (f.Om0 / (1 - f.Om0)) ^ (1 / 3 : ℝ)))
    (mul_lt_mul_of_pos_right (by linarith) hr)
  show f.hubbleDistance * _ / _ < f.hubbleDistance * _ / _
  exact div_lt_div_of_pos_right (mul_lt_mul_of_pos_left (by linarith) hD) hE

example : (⟨1, 0, 1, 0⟩ : PointMass).physicalFlt linearCosmo 1 1 0 0 = (Flt.nan, Flt.nan) ∧
    (⟨1, 0, 1, 0⟩ : PointMass).reducedFlt linearCosmo 1 1 0 0 = (fin 0, fin 0) :=
  ⟨((C146_same_redshift_fails linearCosmo_grows one_pos one_pos one_pos true true).2.2 _ ⟨one_pos, le_rfl⟩ (by simp)).1,
    ((C146_same_redshift_partial linearCosmo_grows one_pos).2.2 _ ⟨one_pos, le_rfl⟩ (by simp)).1⟩

example : (⟨1, 0, 1, 0⟩ : PointMass).reducedFlt linearCosmo 0 1 0 0 = (Flt.ninf, Flt.nan) := by
  rw [(C146_redshift_zero_fails linearCosmo_grows one_pos).2.2 _ ⟨one_pos, le_rfl⟩ (by simp)]
  simp [Flt.signed]

/-- A `Point` of given mass behind the source: the Einstein radius is the root of a negative number, and every method
returns NaN; an NFW lens repels light (C102_nfw_deflection_fails). -/
theorem C102_point_fails {C : Cosmo} {zl zs x y : ℝ} (hC : C.Grows) (hs : 0 < zs) (hz : zs < zl) (P : PointMass) (h : P.Valid) :
    P.rein C zl zs = Flt.nan ∧ P.reducedFlt C zl zs x y = (Flt.nan, Flt.nan) ∧ P.potentialFlt C zl zs x y = Flt.nan ∧
    raytraceFlt (P.reducedFlt C zl zs x y) x y = (Flt.nan, Flt.nan) := by
  have h1 := hC.angular_pos hs
  have h2 := hC.angular_pos (hs.trans hz)
  have h3 : C.angular12 zl zs < 0 := by
    have := hC.mono (Set.mem_Ici.2 hs.le) (Set.mem_Ici.2 (hs.trans hz).le) hz
    exact div_neg_of_neg_of_pos (sub_neg.2 this) (by linarith)
  have hR : P.rein C zl zs = Flt.nan := by
    have hG := hC.grav
    have hm := h.mass
    have hneg : 4 * C.GOverC2 * P.mass * C.angular12 zl zs / (C.angular zl * C.angular zs) < 0 :=
      div_neg_of_neg_of_pos (mul_neg_of_pos_of_neg (by positivity) h3) (by positivity)
    rw [PointMass.rein, Flt.fin_div _ (by positivity)]
    have : Flt.sqrt (fin (4 * C.GOverC2 * P.mass * C.angular12 zl zs / (C.angular zl * C.angular zs))) = Flt.nan := by
      simp [Flt.sqrt, hneg.not_ge]
    rw [this, Flt.mul_nan]
  have hsq : Flt.sq Flt.nan = Flt.nan := rfl
  refine ⟨hR, ?_, ?_, ?_⟩
  · simp [PointMass.reducedFlt, hR, hsq]
  · simp [PointMass.potentialFlt, hR, hsq]
  · simp [PointMass.reducedFlt, hR, hsq, raytraceFlt]

example : (⟨1, 0, 1, 0⟩ : PointMass).reducedFlt linearCosmo 2 1 0 0 = (Flt.nan, Flt.nan) :=
  (C102_point_fails linearCosmo_grows one_pos one_lt_two _ ⟨one_pos, le_rfl⟩).2.1

end Caustics

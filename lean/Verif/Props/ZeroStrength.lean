import Verif.Model.ZeroStrength
import Verif.Props.Softening
import Verif.Props.EPL
import Verif.Props.FieldOfViewHalo
import Mathlib.Analysis.SpecialFunctions.Log.Deriv

/-!
C133: a lens at the lower end of its strength does nothing.
-/

namespace Caustics

open Real Filter Topology

/-- The deflection is zero away from the centre. -/
def NoLens (alpha : ℝ → ℝ → Option (ℝ × ℝ)) (x0 y0 : ℝ) : Prop :=
  ∀ x y, (x, y) ≠ (x0, y0) → alpha x y = some (0, 0)

theorem off_radius {x y x0 y0 s : ℝ} (h : (x, y) ≠ (x0, y0)) (hs : 0 ≤ s) :
    0 < √((x - x0) ^ 2 + (y - y0) ^ 2) + s :=
  add_pos_of_pos_of_nonneg (radius_pos (sub_ne_zero_pair h)) hs

/-! ### The full claim -/

/-- Lenses whose strength or mass is zero, a value every class accepts, deflect nothing. -/
def C133_statement : Prop :=
  (∀ x0 y0 s, 0 ≤ s → NoLens (sisDeflectionOpt x0 y0 0 s) x0 y0) ∧
  (∀ x0 y0 s, 0 ≤ s → NoLens (pointDeflectionOpt x0 y0 0 s) x0 y0) ∧
  (∀ x0 y0 q phi s, 0 < q → q ≤ 1 → 0 ≤ s → NoLens (sieDeflectionOpt x0 y0 q phi 0 s) x0 y0) ∧
  (∀ L : NFW, { L with mass := 1 }.Ok → 0 ≤ L.s → L.mass = 0 → NoLens L.deflectionOpt L.x0 L.y0) ∧
  (∀ L : TNFWLens, { L with mass := 1 }.Ok → 0 ≤ L.s → L.mass = 0 → NoLens L.deflectionOpt L.x0 L.y0)

/-! ### What holds -/

/-- The isothermal lenses and the point mass with Einstein radius zero. -/
theorem C133_einstein_partial :
    (∀ x0 y0 s, 0 ≤ s → NoLens (sisDeflectionOpt x0 y0 0 s) x0 y0) ∧
    (∀ x0 y0 s, 0 ≤ s → NoLens (pointDeflectionOpt x0 y0 0 s) x0 y0) ∧
    (∀ x0 y0 q phi s, 0 < q → q ≤ 1 → 0 ≤ s → NoLens (sieDeflectionOpt x0 y0 q phi 0 s) x0 y0) ∧
    (∀ x0 y0 q phi t N cs s, 0 < t → 1 ≤ N → ChunkOk N cs →
      NoLens (eplClassDeflectionOpt x0 y0 q phi 0 t N cs s) x0 y0) := by
  refine ⟨fun x0 y0 s hs x y h => ?_, fun x0 y0 s hs x y h => ?_, fun x0 y0 q phi s hq hq1 hs x y h => ?_,
    fun x0 y0 q phi t N cs s ht hN hcs x y h => ?_⟩
  · rw [sisDeflectionOpt_eq (off_radius h hs).ne']
    simp [sisDeflection]
  · rw [pointDeflectionOpt_eq (off_radius h hs).ne']
    simp [pointDeflection]
  · rw [sieDeflectionOpt_eq hq hq1 hs (Or.inr h)]
    simp only [sieDeflection, zero_mul, zero_div]
    simp [derotate]
  · simp only [eplClassDeflectionOpt, eplDeflection, eplFrame_eq q 0 t N hN cs hcs]
    simp [eplField, derotate, zero_rpow ht.ne', Except.toOption, Bind.bind, Except.bind]

/-- Their convergence and potential. -/
theorem C133_einstein_potential (x0 y0 q phi s t x y : ℝ) (ht : 0 < t) :
    sisConvergence x0 y0 0 s x y = 0 ∧ sisPotential x0 y0 0 s x y = 0 ∧ pointPotential x0 y0 0 s x y = 0 ∧
    sieConvergence x0 y0 q phi 0 s x y = 0 ∧ siePotential x0 y0 q phi 0 s x y = 0 ∧
    eplConvergence x0 y0 q phi 0 t s x y = 0 := by
  refine ⟨by simp [sisConvergence], by simp [sisPotential], by simp [pointPotential], by simp [sieConvergence], ?_, ?_⟩
  · simp [siePotential, sieDeflection, derotate]
  · simp [eplConvergence, zero_rpow ht.ne']

/-- Sheets, shears and multipoles of amplitude zero. -/
theorem C133_fields (x0 y0 x y : ℝ) {n : ℕ} (m phim : Fin n → ℝ) :
    sheetDeflection x0 y0 0 x y = (0, 0) ∧ shearDeflection x0 y0 0 0 x y = (0, 0) ∧
    multipoleDeflection x0 y0 m (fun _ => 0) phim x y = (0, 0) := by
  refine ⟨by simp [sheetDeflection], by simp [shearDeflection], by simp [multipoleDeflection]⟩

/-- The pseudo-Jaffe lens. -/
theorem C133_jaffe_partial (L : PJaffe) (hL : L.Ok) (hm : L.mass = 0) : NoLens L.classDeflectionOpt L.x0 L.y0 := by
  intro x y h
  have hok : { L with s := 0 }.Ok := ⟨hL.G, hL.Rc, hL.Rs, hL.ne, hL.d_l, hL.d_s, hL.d_ls, hL.sigmacr⟩
  rw [PJaffe.classDeflectionOpt, PJaffe.deflectionOpt_eq _ hok (off_radius h le_rfl)]
  simp [PJaffe.deflection, pjKappa0, hm]

/-- The truncated NFW lens with `interpret_m_total_mass=True`. -/
theorem C133_tnfw_partial (L : TNFWLens) (hL : { L with mass := 1 }.Ok) (hs : 0 ≤ L.s) (hi : L.interpretTotal = true)
    (hm : L.mass = 0) : NoLens L.deflectionOpt L.x0 L.y0 := by
  intro x y h
  have ht : 0 < L.tau := hL.tau
  have hden := C63_tnfw_pos { L with mass := 1 } hL
  have hM : L.M0Opt = some 0 := by
    simp only [TNFWLens.M0Opt, hi, if_true, tnfwM0TotOpt, logOpt, ht, Option.bind_eq_bind, Option.bind_some]
    have hne : L.tau ^ 2 * ((L.tau ^ 2 - 1) * log L.tau + π * L.tau - (L.tau ^ 2 + 1)) ≠ 0 := by
      intro h0
      simp only [TNFWLens.M0, hi, if_true, tnfwM0Tot, h0, div_zero] at hden
      exact absurd hden (lt_irrefl _)
    rw [divOpt_eq hne, hm, zero_mul, zero_div]
  have hok : { L.toTNFW with M0 := 0 }.Ok := ⟨hL.G, hL.Rs, hL.tau, hL.d_l, hL.d_s, hL.d_ls, hL.sigmacr⟩
  simp only [TNFWLens.deflectionOpt, hM, Option.bind_eq_bind, Option.bind_some]
  rw [TNFW.deflectionOpt_eq _ hok (off_radius h hs)]
  simp [TNFW.deflection, TNFW.physicalDeflection, tnfwMassEnclosed]

/-! ### What does not -/

theorem nfwScaleRadiusOpt_zero {rhoc c Delta : ℝ} (h1 : 0 < rhoc) (h2 : 0 < c) (h3 : 0 < Delta) :
    nfwScaleRadiusOpt rhoc 0 c Delta = some 0 := by
  have hp := pi_pos
  simp only [nfwScaleRadiusOpt, mul_zero]
  rw [divOpt_eq (by positivity), zero_div]
  simp only [Option.bind_eq_bind, Option.bind_some, powOpt]
  rw [if_pos (Or.inr ⟨trivial, by norm_num⟩)]
  simp only [Option.bind_some]
  rw [divOpt_eq h2.ne', zero_rpow (by norm_num), zero_div]

/-- An NFW lens of mass zero has no deflection and no convergence anywhere: the radius is divided by the scale radius,
which is zero. -/
theorem C133_nfw_fails (L : NFW) (hL : { L with mass := 1 }.Ok) (hm : L.mass = 0) (x y : ℝ) :
    L.deflectionOpt x y = none ∧ L.convergenceOpt x y = none := by
  have h1 : 0 < L.rhoc := hL.rhoc
  have h2 : 0 < L.c := hL.c
  have h3 : 0 < L.Delta := hL.Delta
  constructor
  · simp only [NFW.deflectionOpt, hm, nfwScaleRadiusOpt_zero h1 h2 h3, Option.bind_eq_bind, Option.bind_some,
      divOpt_zero, Option.bind_none, Option.bind_fun_none]
  · simp only [NFW.convergenceOpt, hm, nfwScaleRadiusOpt_zero h1 h2 h3, Option.bind_eq_bind, Option.bind_some,
      divOpt_zero, Option.bind_none, Option.bind_fun_none]

/-- A truncated NFW lens with `interpret_m_total_mass=False` and mass zero: its concentration is zero, and the scale
density is 0 / 0. -/
theorem C133_tnfw_fails (L : TNFWLens) (hL : { L with mass := 1 }.Ok) (hi : L.interpretTotal = false)
    (hm : L.mass = 0) (x y : ℝ) : L.deflectionOpt x y = none := by
  have hp := pi_pos
  have h1 : 0 < L.rhoc := hL.rhoc
  have h2 : 0 < L.Rs := hL.Rs
  have h3 : 0 < L.d_l := hL.d_l
  have ha := arcsecToRad_pos
  have hc : tnfwConcentrationOpt 0 L.Rs L.rhoc L.d_l tnfwDelta = some 0 := by
    have hD : 0 < tnfwDelta := by norm_num [tnfwDelta]
    simp only [tnfwConcentrationOpt, mul_zero]
    rw [divOpt_eq (by positivity), zero_div]
    simp only [Option.bind_eq_bind, Option.bind_some, powOpt]
    rw [if_pos (Or.inr ⟨trivial, by norm_num⟩)]
    simp only [Option.bind_some]
    rw [divOpt_eq (by positivity), zero_rpow (by norm_num), zero_div]
  have hd : tnfwScaleDensityOpt 0 L.rhoc tnfwDelta = none := by
    simp [tnfwScaleDensityOpt, logOpt, divOpt]
  simp [TNFWLens.deflectionOpt, TNFWLens.M0Opt, hi, hm, hc, hd]

/-- The full claim is false. -/
theorem C133_fails : ¬ C133_statement := by
  rintro ⟨-, -, -, h, -⟩
  have hok : { unitNFW with mass := 1 }.Ok := by
    have := unitNFW_ok
    exact ⟨this.G, one_pos, this.c, this.Delta, this.rhoc, this.d_l, this.d_s, this.d_ls, this.sigmacr⟩
  have hs : 0 ≤ unitNFW.s := by norm_num [unitNFW]
  have h1 := h { unitNFW with mass := 0 } hok hs rfl (unitNFW.x0 + 1) unitNFW.y0
    (by simp [Prod.ext_iff])
  have h2 := (C133_nfw_fails { unitNFW with mass := 0 } hok rfl (unitNFW.x0 + 1) unitNFW.y0).1
  rw [h2] at h1
  simp at h1

/-! ### The limit -/

/-- Towards zero mass the deflection of an NFW lens vanishes, everywhere at once and as the power 2/3 of the mass. -/
theorem C133_nfw_limit (L : NFW) (hL : L.Ok) (hs : 0 ≤ L.s) :
    ∃ K : ℝ, ∀ m : ℝ, 0 < m → ∀ x y, (x, y) ≠ (L.x0, L.y0) → ∃ a : ℝ × ℝ,
      { L with mass := m }.deflectionOpt x y = some a ∧ len2 a ≤ K * m ^ ((2 : ℝ) / 3) := by
  have hpi := pi_pos
  refine ⟨L.d_ls / L.d_s * (32 * π * L.Gc2 * nfwScaleDensity L.rhoc L.c L.Delta *
    ((3 / (4 * π * L.Delta * L.rhoc)) ^ ((1 : ℝ) / 3) / L.c) ^ 2 * radToArcsec), fun m hm x y h => ?_⟩
  have hok : { L with mass := m }.Ok :=
    ⟨hL.G, hm, hL.c, hL.Delta, hL.rhoc, hL.d_l, hL.d_s, hL.d_ls, hL.sigmacr⟩
  refine ⟨_, NFW.deflectionOpt_eq _ hok (off_radius h hs), ?_⟩
  have hr := C128_nfw { L with mass := m } hok hs (x, y) (len2_nonneg _)
  rw [zero_mul, add_zero] at hr
  refine hr.trans (le_of_eq ?_)
  have h1 := hL.Delta
  have h2 := hL.rhoc
  have e : ({ L with mass := m } : NFW).rs ^ 2 =
      ((3 / (4 * π * L.Delta * L.rhoc)) ^ ((1 : ℝ) / 3) / L.c) ^ 2 * m ^ ((2 : ℝ) / 3) := by
    have e1 : 3 * m / (4 * π * L.Delta * L.rhoc) = 3 / (4 * π * L.Delta * L.rhoc) * m := by ring
    have e2 : m ^ ((2 : ℝ) / 3) = (m ^ ((1 : ℝ) / 3)) ^ 2 := by
      rw [← rpow_natCast, ← rpow_mul hm.le]
      norm_num
    simp only [NFW.rs, nfwScaleRadius]
    rw [e1, mul_rpow (by positivity) hm.le, e2]
    ring
  rw [NFW.reach, e]
  ring

/-- The same for a truncated NFW lens with `interpret_m_total_mass=False`, at each position. -/
theorem C133_tnfw_limit (L : TNFWLens) (hL : L.Ok) (hs : 0 ≤ L.s) (hi : L.interpretTotal = false) (x y : ℝ)
    (h : (x, y) ≠ (L.x0, L.y0)) :
    ∃ a : ℝ → ℝ × ℝ, (∀ m, 0 < m → { L with mass := m }.toTNFW.deflectionOpt x y = some (a m)) ∧
      Tendsto a (𝓝[>] 0) (𝓝 0) := by
  have hpi := pi_pos
  have ha := arcsecToRad_pos
  have hok : ∀ m, { L with mass := m }.toTNFW.Ok := fun m =>
    ⟨hL.G, hL.Rs, hL.tau, hL.d_l, hL.d_s, hL.d_ls, hL.sigmacr⟩
  refine ⟨fun m => { L with mass := m }.toTNFW.deflection x y, fun m _ =>
    TNFW.deflectionOpt_eq _ (hok m) (off_radius h hs), ?_⟩
  have hlin : ∀ m, ({ L with mass := m }.toTNFW).deflection x y =
      (({ L with mass := m } : TNFWLens).M0 * (({ L.toTNFW with M0 := 1 } : TNFW).deflection x y).1,
        ({ L with mass := m } : TNFWLens).M0 * (({ L.toTNFW with M0 := 1 } : TNFW).deflection x y).2) := by
    intro m
    simp only [TNFW.deflection, TNFW.physicalDeflection, TNFWLens.toTNFW, tnfwMassEnclosed]
    refine Prod.ext ?_ ?_ <;> simp only <;> ring
  have hM : Tendsto (fun m => ({ L with mass := m } : TNFWLens).M0) (𝓝[>] 0) (𝓝 0) := by
    have hD : 0 < tnfwDelta := by norm_num [tnfwDelta]
    have h1 := hL.rhoc
    have h2 := hL.Rs
    have h3 := hL.d_l
    set A := 4 * π * (L.Rs * L.d_l * arcsecToRad) ^ 3 * (tnfwDelta / 3 * L.rhoc) with hA
    have hA0 : 0 ≤ A := by positivity
    set conc : ℝ → ℝ := fun m => tnfwConcentration m L.Rs L.rhoc L.d_l tnfwDelta with hconc
    have hc0 : ∀ m, 0 < m → 0 < conc m := by
      intro m hm
      simp only [hconc, tnfwConcentration]
      positivity
    have hct : Tendsto conc (𝓝[>] 0) (𝓝 0) := by
      have hcont : Continuous conc := by
        simp only [hconc, tnfwConcentration]
        refine Continuous.div_const (Continuous.rpow_const (by fun_prop) fun _ => Or.inr (by norm_num)) _
      have := hcont.tendsto 0
      have e0 : conc 0 = 0 := by
        simp [hconc, tnfwConcentration]
      rw [e0] at this
      exact this.mono_left nhdsWithin_le_nhds
    have hbound : ∀ m, 0 < m → 0 ≤ ({ L with mass := m } : TNFWLens).M0 ∧
        ({ L with mass := m } : TNFWLens).M0 ≤ A * (conc m * ((2 + conc m) * (1 + conc m))) := by
      intro m hm
      have hc := hc0 m hm
      set c := conc m with hcdef
      have hlog : c ^ 2 / ((2 + c) * (1 + c)) ≤ log (1 + c) - c / (1 + c) := by
        have := le_log_one_add_of_nonneg hc.le
        refine le_trans (le_of_eq ?_) (sub_le_sub_right this _)
        field_simp
        ring
      have hpos : 0 < c ^ 2 / ((2 + c) * (1 + c)) := by positivity
      have e : ({ L with mass := m } : TNFWLens).M0 = A * (c ^ 3 / (log (1 + c) - c / (1 + c))) := by
        simp only [TNFWLens.M0, hi, tnfwM0Scale, tnfwScaleDensity, hA]
        rw [if_neg (by simp)]
        change 4 * π * (L.Rs * L.d_l * arcsecToRad) ^ 3 * (tnfwDelta / 3 * L.rhoc * c ^ 3 /
          (log (1 + c) - c / (1 + c))) = _
        ring
      rw [e]
      refine ⟨mul_nonneg hA0 (div_nonneg (by positivity) (hpos.le.trans hlog)), mul_le_mul_of_nonneg_left ?_ hA0⟩
      rw [div_le_iff₀ (hpos.trans_le hlog)]
      calc c ^ 3 = c * ((2 + c) * (1 + c)) * (c ^ 2 / ((2 + c) * (1 + c))) := by field_simp
        _ ≤ _ := mul_le_mul_of_nonneg_left hlog (by positivity)
    have hup : Tendsto (fun m => A * (conc m * ((2 + conc m) * (1 + conc m)))) (𝓝[>] 0) (𝓝 0) := by
      have := ((hct.mul ((hct.const_add 2).mul (hct.const_add 1))).const_mul A)
      simpa using this
    refine squeeze_zero' ?_ ?_ hup
    · filter_upwards [self_mem_nhdsWithin] with m hm using (hbound m hm).1
    · filter_upwards [self_mem_nhdsWithin] with m hm using (hbound m hm).2
  simp only [hlin]
  have := (hM.mul_const (({ L.toTNFW with M0 := 1 } : TNFW).deflection x y).1).prodMk_nhds
    (hM.mul_const (({ L.toTNFW with M0 := 1 } : TNFW).deflection x y).2)
  simpa [← Prod.zero_eq_mk] using this

/-! ### Positive masses -/

theorem nfwFOpt_eq {x : ℝ} (hx : 0 < x) : nfwFOpt x = some (nfwF x) := by
  simp only [nfwFOpt, nfwF]
  split_ifs with h1 h2
  · have hg : 1 < max x (1 + 1e-6) := lt_max_of_lt_left h1
    have hs : 0 < max x (1 + 1e-6) ^ 2 - 1 := by nlinarith
    rw [divOpt_eq (by linarith)]
    simp only [Option.bind_eq_bind, Option.bind_some]
    rw [sqrtOpt_eq (div_nonneg (by linarith) (by linarith)), sqrtOpt_eq hs.le]
    simp only [Option.bind_some]
    rw [divOpt_eq (sqrt_pos.2 hs).ne']
    rfl
  · have hl0 : 0 < min x (1 - 1e-6) := lt_min hx (by norm_num)
    have hl1 : min x (1 - 1e-6) < 1 := min_lt_of_right_lt (by norm_num)
    have hs : 0 < 1 - min x (1 - 1e-6) ^ 2 := by nlinarith
    have hq : (1 - min x (1 - 1e-6)) / (1 + min x (1 - 1e-6)) < 1 := by
      rw [div_lt_one (by linarith)]; linarith
    have hq0 : 0 ≤ (1 - min x (1 - 1e-6)) / (1 + min x (1 - 1e-6)) := div_nonneg (by linarith) (by linarith)
    rw [divOpt_eq (by linarith)]
    simp only [Option.bind_eq_bind, Option.bind_some]
    rw [sqrtOpt_eq hq0, sqrtOpt_eq hs.le]
    simp only [Option.bind_some]
    rw [atanhOpt, if_pos (by rw [abs_of_nonneg (sqrt_nonneg _), sqrt_lt' one_pos]; simpa using hq)]
    simp only [Option.bind_some]
    rw [divOpt_eq (sqrt_pos.2 hs).ne']
    rfl
  · rfl

/-- For every positive mass the checked formulas give the numbers of the unchecked ones, so the failure at zero is one of
the end point only. -/
theorem C133_positive_partial :
    (∀ (L : NFW), L.Ok → ∀ x y, 0 < √((x - L.x0) ^ 2 + (y - L.y0) ^ 2) + L.s →
      L.deflectionOpt x y = some (L.deflection x y) ∧ L.convergenceOpt x y = L.convergence x y) ∧
    ∀ (L : TNFWLens), L.Ok → ∀ x y, 0 < √((x - L.x0) ^ 2 + (y - L.y0) ^ 2) + L.s →
      L.deflectionOpt x y = some (L.toTNFW.deflection x y) := by
  have ha := arcsecToRad_pos
  have hpi := pi_pos
  refine ⟨fun L hL x y h => ⟨L.deflectionOpt_eq hL h, ?_⟩, fun L hL x y h => ?_⟩
  · have h1 := hL.d_l; have h2 := hL.mass; have h3 := hL.c; have h4 := hL.Delta; have h5 := hL.rhoc
    have h6 := hL.d_s; have h7 := hL.d_ls; have h8 := hL.G
    have hrs := L.rs_pos hL
    have hsc : 0 < L.sigmacr := by rw [hL.sigmacr]; positivity
    have e1 : nfwScaleRadiusOpt L.rhoc L.mass L.c L.Delta = some L.rs := by
      simp only [nfwScaleRadiusOpt, NFW.rs, nfwScaleRadius]
      rw [divOpt_eq (by positivity)]
      simp only [Option.bind_eq_bind, Option.bind_some]
      rw [powOpt_eq (by positivity)]
      simp only [Option.bind_some]
      rw [divOpt_eq h3.ne']
    have e2 : nfwScaleDensityOpt L.rhoc L.c L.Delta = some (nfwScaleDensity L.rhoc L.c L.Delta) := by
      simp only [nfwScaleDensityOpt, nfwScaleDensity]
      rw [logOpt_eq (by positivity), divOpt_eq (by positivity)]
      simp only [Option.bind_eq_bind, Option.bind_some]
      rw [divOpt_eq (nfw_mass_fn_pos h3).ne']
    simp only [NFW.convergenceOpt, NFW.convergence, translateRotate, nfwConvergenceS]
    rw [sqrtOpt_eq (by positivity), e1, e2]
    simp only [Option.bind_eq_bind, Option.bind_some]
    rw [divOpt_eq hrs.ne', divOpt_eq hsc.ne']
    simp only [Option.bind_some]
    rw [nfwFOpt_eq (by positivity)]
    rfl
  · have h1 := hL.d_l; have h2 := hL.mass; have h3 := hL.Rs; have h4 := hL.tau; have h5 := hL.rhoc
    have hD : 0 < tnfwDelta := by norm_num [tnfwDelta]
    have hM : L.M0Opt = some L.M0 := by
      simp only [TNFWLens.M0Opt, TNFWLens.M0]
      split_ifs
      · simp only [tnfwM0TotOpt, tnfwM0Tot]
        rw [logOpt_eq h4]
        simp only [Option.bind_eq_bind, Option.bind_some]
        rw [divOpt_eq (mul_pos (by positivity) (tnfw_norm_pos h4)).ne']
      · have hc : 0 < tnfwConcentration L.mass L.Rs L.rhoc L.d_l tnfwDelta := by
          simp only [tnfwConcentration]; positivity
        have e1 : tnfwConcentrationOpt L.mass L.Rs L.rhoc L.d_l tnfwDelta =
            some (tnfwConcentration L.mass L.Rs L.rhoc L.d_l tnfwDelta) := by
          simp only [tnfwConcentrationOpt, tnfwConcentration]
          rw [divOpt_eq (by positivity)]
          simp only [Option.bind_eq_bind, Option.bind_some]
          rw [powOpt_eq (by positivity)]
          simp only [Option.bind_some]
          rw [divOpt_eq (by positivity)]
        rw [e1]
        simp only [Option.bind_eq_bind, Option.bind_some, tnfwScaleDensityOpt]
        rw [logOpt_eq (by positivity), divOpt_eq (by positivity)]
        simp only [Option.bind_some]
        rw [divOpt_eq (nfw_mass_fn_pos hc).ne']
        rfl
    simp only [TNFWLens.deflectionOpt, hM, Option.bind_eq_bind, Option.bind_some]
    exact TNFW.deflectionOpt_eq L.toTNFW ⟨hL.G, hL.Rs, hL.tau, hL.d_l, hL.d_s, hL.d_ls, hL.sigmacr⟩ h

/-- An SIE of Einstein radius zero. -/
example : sieDeflectionOpt 0 0 (1 / 2) 0 0 0 3 4 = some (0, 0) :=
  C133_einstein_partial.2.2.1 0 0 (1 / 2) 0 0 (by norm_num) (by norm_num) le_rfl 3 4 (by simp)

/-- The unit NFW lens without mass. -/
example : { unitNFW with mass := 0 }.deflectionOpt 3 4 = none :=
  (C133_nfw_fails { unitNFW with mass := 0 } (by
    have := unitNFW_ok
    exact ⟨this.G, one_pos, this.c, this.Delta, this.rhoc, this.d_l, this.d_s, this.d_ls, this.sigmacr⟩) rfl 3 4).1

end Caustics

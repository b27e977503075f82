import Mathlib.Analysis.Calculus.ContDiff.RCLike
import Mathlib.Analysis.Calculus.ContDiff.Operations
import Mathlib.Analysis.SpecialFunctions.Complex.LogDeriv
import Mathlib.MeasureTheory.Integral.IntervalIntegral.FundThmCalculus
import Mathlib.Analysis.Complex.Basic
import Mathlib.Tactic.Linarith

/-!
The winding number of a plane map around a rectangle, as an integral of the logarithmic derivative.
-/

namespace Caustics

open ComplexConjugate Filter Topology Complex MeasureTheory

/-- Along the edge at height `y`. -/
noncomputable def edgeX (f : ℂ → ℂ) (a b y : ℝ) : ℂ := ∫ x in a..b, fderiv ℝ f ⟨x, y⟩ 1 / f ⟨x, y⟩

/-- Along the edge at abscissa `x`. -/
noncomputable def edgeY (f : ℂ → ℂ) (x c d : ℝ) : ℂ := ∫ y in c..d, fderiv ℝ f ⟨x, y⟩ I / f ⟨x, y⟩

/-- Once around the rectangle, counterclockwise: `2 π i` times the winding number. -/
noncomputable def around (f : ℂ → ℂ) (a b c d : ℝ) : ℂ :=
  edgeX f a b c + edgeY f b c d - edgeX f a b d - edgeY f a c d

/-- Where the logarithmic derivative makes sense. -/
def Good (f : ℂ → ℂ) (z : ℂ) : Prop := ContDiffAt ℝ 1 f z ∧ f z ≠ 0

/-- `f` is continuously differentiable without zeros on the edges. -/
structure GoodRect (f : ℂ → ℂ) (a b c d : ℝ) : Prop where
  hab : a ≤ b
  hcd : c ≤ d
  bottom : ∀ x ∈ Set.Icc a b, Good f ⟨x, c⟩
  top : ∀ x ∈ Set.Icc a b, Good f ⟨x, d⟩
  left : ∀ y ∈ Set.Icc c d, Good f ⟨a, y⟩
  right : ∀ y ∈ Set.Icc c d, Good f ⟨b, y⟩

variable {f h : ℂ → ℂ} {a b c d : ℝ}

theorem lineX_deriv (x y : ℝ) : HasDerivAt (fun x : ℝ => (⟨x, y⟩ : ℂ)) 1 x := by
  have : (fun x : ℝ => (⟨x, y⟩ : ℂ)) = fun x : ℝ => (x : ℂ) + y * I := by
    funext x
    exact Complex.mk_eq_add_mul_I x y
  rw [this]
  exact (Complex.ofRealCLM.hasDerivAt (x := x)).add_const _

theorem lineY_deriv (x y : ℝ) : HasDerivAt (fun y : ℝ => (⟨x, y⟩ : ℂ)) I y := by
  have : (fun y : ℝ => (⟨x, y⟩ : ℂ)) = fun y : ℝ => (x : ℂ) + y * I := by
    funext y
    exact Complex.mk_eq_add_mul_I x y
  rw [this]
  have := ((Complex.ofRealCLM.hasDerivAt (x := y)).mul_const I).const_add (x : ℂ)
  simpa using this

theorem Good.differentiable {z : ℂ} (hf : Good f z) : DifferentiableAt ℝ f z := hf.1.differentiableAt one_ne_zero

theorem Good.derivX {x y : ℝ} (hf : Good f ⟨x, y⟩) :
    HasDerivAt (fun x : ℝ => f ⟨x, y⟩) (fderiv ℝ f ⟨x, y⟩ 1) x :=
  hf.differentiable.hasFDerivAt.comp_hasDerivAt x (lineX_deriv x y)

theorem Good.derivY {x y : ℝ} (hf : Good f ⟨x, y⟩) :
    HasDerivAt (fun y : ℝ => f ⟨x, y⟩) (fderiv ℝ f ⟨x, y⟩ I) y :=
  hf.differentiable.hasFDerivAt.comp_hasDerivAt y (lineY_deriv x y)

theorem Good.contX {x y : ℝ} (hf : Good f ⟨x, y⟩) (v : ℂ) :
    ContinuousAt (fun x : ℝ => fderiv ℝ f ⟨x, y⟩ v) x := by
  have h1 : ContinuousAt (fderiv ℝ f) ⟨x, y⟩ := (hf.1.fderiv_right (m := 0) (by norm_num)).continuousAt
  exact (h1.comp (f := fun x : ℝ => (⟨x, y⟩ : ℂ)) (lineX_deriv x y).continuousAt).clm_apply continuousAt_const

theorem Good.contY {x y : ℝ} (hf : Good f ⟨x, y⟩) (v : ℂ) :
    ContinuousAt (fun y : ℝ => fderiv ℝ f ⟨x, y⟩ v) y := by
  have h1 : ContinuousAt (fderiv ℝ f) ⟨x, y⟩ := (hf.1.fderiv_right (m := 0) (by norm_num)).continuousAt
  exact (h1.comp (f := fun y : ℝ => (⟨x, y⟩ : ℂ)) (lineY_deriv x y).continuousAt).clm_apply continuousAt_const

theorem intX {y : ℝ} (hab : a ≤ b) (hf : ∀ x ∈ Set.Icc a b, Good f ⟨x, y⟩) :
    IntervalIntegrable (fun x : ℝ => fderiv ℝ f ⟨x, y⟩ 1 / f ⟨x, y⟩) volume a b := by
  refine ContinuousOn.intervalIntegrable fun x hx => ?_
  rw [Set.uIcc_of_le hab] at hx
  exact (((hf x hx).contX 1).div (hf x hx).derivX.continuousAt (hf x hx).2).continuousWithinAt

theorem intY {x : ℝ} (hcd : c ≤ d) (hf : ∀ y ∈ Set.Icc c d, Good f ⟨x, y⟩) :
    IntervalIntegrable (fun y : ℝ => fderiv ℝ f ⟨x, y⟩ I / f ⟨x, y⟩) volume c d := by
  refine ContinuousOn.intervalIntegrable fun y hy => ?_
  rw [Set.uIcc_of_le hcd] at hy
  exact (((hf y hy).contY I).div (hf y hy).derivY.continuousAt (hf y hy).2).continuousWithinAt

/-! ### Cutting a rectangle -/

theorem around_cutX {e : ℝ} (h1 : a ≤ e) (h2 : e ≤ b) (hR : GoodRect f a b c d) :
    around f a b c d = around f a e c d + around f e b c d := by
  have k1 : edgeX f a b c = edgeX f a e c + edgeX f e b c :=
    (intervalIntegral.integral_add_adjacent_intervals
      (intX h1 fun x hx => hR.bottom x ⟨hx.1, hx.2.trans h2⟩)
      (intX h2 fun x hx => hR.bottom x ⟨h1.trans hx.1, hx.2⟩)).symm
  have k2 : edgeX f a b d = edgeX f a e d + edgeX f e b d :=
    (intervalIntegral.integral_add_adjacent_intervals
      (intX h1 fun x hx => hR.top x ⟨hx.1, hx.2.trans h2⟩)
      (intX h2 fun x hx => hR.top x ⟨h1.trans hx.1, hx.2⟩)).symm
  rw [around, around, around, k1, k2]
  ring

theorem around_cutY {e : ℝ} (h1 : c ≤ e) (h2 : e ≤ d) (hR : GoodRect f a b c d) :
    around f a b c d = around f a b c e + around f a b e d := by
  have k1 : edgeY f a c d = edgeY f a c e + edgeY f a e d :=
    (intervalIntegral.integral_add_adjacent_intervals
      (intY h1 fun x hx => hR.left x ⟨hx.1, hx.2.trans h2⟩)
      (intY h2 fun x hx => hR.left x ⟨h1.trans hx.1, hx.2⟩)).symm
  have k2 : edgeY f b c d = edgeY f b c e + edgeY f b e d :=
    (intervalIntegral.integral_add_adjacent_intervals
      (intY h1 fun x hx => hR.right x ⟨hx.1, hx.2.trans h2⟩)
      (intY h2 fun x hx => hR.right x ⟨h1.trans hx.1, hx.2⟩)).symm
  rw [around, around, around, k1, k2]
  ring

/-! ### Nearby maps wind alike -/

theorem near_slit {u v : ℂ} (hv : v ≠ 0) (h : ‖u - v‖ < ‖v‖) : u / v ∈ slitPlane := by
  refine Or.inl ?_
  have h1 : ‖u / v - 1‖ < 1 := by
    rw [div_sub_one hv, norm_div, div_lt_one (norm_pos_iff.2 hv)]
    exact h
  have h2 := (Complex.abs_re_le_norm (u / v - 1)).trans_lt h1
  rw [abs_lt, Complex.sub_re, Complex.one_re] at h2
  linarith

theorem log_edge {u v u' v' : ℝ → ℂ} (hab : a ≤ b)
    (hu : ∀ t ∈ Set.Icc a b, HasDerivAt u (u' t) t) (hv : ∀ t ∈ Set.Icc a b, HasDerivAt v (v' t) t)
    (hn : ∀ t ∈ Set.Icc a b, u t ≠ 0 ∧ v t ≠ 0 ∧ u t / v t ∈ slitPlane)
    (iu : IntervalIntegrable (fun t => u' t / u t) volume a b)
    (iv : IntervalIntegrable (fun t => v' t / v t) volume a b) :
    (∫ t in a..b, u' t / u t) - (∫ t in a..b, v' t / v t) = log (u b / v b) - log (u a / v a) := by
  rw [← intervalIntegral.integral_sub iu iv]
  refine intervalIntegral.integral_eq_sub_of_hasDerivAt (f := fun t => log (u t / v t)) ?_ (iu.sub iv)
  intro t ht
  rw [Set.uIcc_of_le hab] at ht
  obtain ⟨h1, h2, h3⟩ := hn t ht
  refine (((hu t ht).div (hv t ht) h2).clog_real h3).congr_deriv ?_
  simp only [Pi.div_apply]
  field_simp

/-- Where `f / h` stays away from the negative axis the two maps wind alike. -/
theorem around_slit (hf : GoodRect f a b c d) (hh : GoodRect h a b c d)
    (hs : ∀ z : ℂ, z.re ∈ Set.Icc a b → z.im ∈ Set.Icc c d → (z.re = a ∨ z.re = b ∨ z.im = c ∨ z.im = d) →
      f z / h z ∈ slitPlane) : around f a b c d = around h a b c d := by
  have hab := hf.hab
  have hcd := hf.hcd
  have ma : a ∈ Set.Icc a b := ⟨le_rfl, hab⟩
  have mb : b ∈ Set.Icc a b := ⟨hab, le_rfl⟩
  have mc : c ∈ Set.Icc c d := ⟨le_rfl, hcd⟩
  have md : d ∈ Set.Icc c d := ⟨hcd, le_rfl⟩
  have e1 := log_edge hab (fun x hx => (hf.bottom x hx).derivX) (fun x hx => (hh.bottom x hx).derivX)
    (fun x hx => ⟨(hf.bottom x hx).2, (hh.bottom x hx).2, hs ⟨x, c⟩ hx mc (by simp)⟩) (intX hab hf.bottom)
    (intX hab hh.bottom)
  have e2 := log_edge hab (fun x hx => (hf.top x hx).derivX) (fun x hx => (hh.top x hx).derivX)
    (fun x hx => ⟨(hf.top x hx).2, (hh.top x hx).2, hs ⟨x, d⟩ hx md (by simp)⟩) (intX hab hf.top)
    (intX hab hh.top)
  have e3 := log_edge hcd (fun x hx => (hf.left x hx).derivY) (fun x hx => (hh.left x hx).derivY)
    (fun x hx => ⟨(hf.left x hx).2, (hh.left x hx).2, hs ⟨a, x⟩ ma hx (by simp)⟩) (intY hcd hf.left)
    (intY hcd hh.left)
  have e4 := log_edge hcd (fun x hx => (hf.right x hx).derivY) (fun x hx => (hh.right x hx).derivY)
    (fun x hx => ⟨(hf.right x hx).2, (hh.right x hx).2, hs ⟨b, x⟩ mb hx (by simp)⟩) (intY hcd hf.right)
    (intY hcd hh.right)
  change edgeX f a b c - edgeX h a b c = _ at e1
  change edgeX f a b d - edgeX h a b d = _ at e2
  change edgeY f a c d - edgeY h a c d = _ at e3
  change edgeY f b c d - edgeY h b c d = _ at e4
  rw [around, around]
  linear_combination e1 - e2 - e3 + e4

/-- Rouché. -/
theorem around_near (hf : GoodRect f a b c d) (hh : GoodRect h a b c d)
    (hs : ∀ z : ℂ, z.re ∈ Set.Icc a b → z.im ∈ Set.Icc c d → (z.re = a ∨ z.re = b ∨ z.im = c ∨ z.im = d) →
      ‖f z - h z‖ < ‖h z‖) : around f a b c d = around h a b c d := by
  refine around_slit hf hh fun z h1 h2 h3 => near_slit ?_ (hs z h1 h2 h3)
  have h4 := hs z h1 h2 h3
  exact norm_pos_iff.1 ((norm_nonneg _).trans_lt h4)

theorem around_const (k : ℂ) : around (fun _ => k) a b c d = 0 := by
  simp [around, edgeX, edgeY]

/-- Constant factors do not matter. -/
theorem around_const_mul {k : ℂ} (hk : k ≠ 0) (hf : ∀ z, DifferentiableAt ℝ f z) :
    around (fun z => k * f z) a b c d = around f a b c d := by
  have hX : ∀ z v : ℂ, fderiv ℝ (fun z => k * f z) z v / (k * f z) = fderiv ℝ f z v / f z := by
    intro z v
    rw [fderiv_const_mul (hf z)]
    simp only [smul_apply, smul_eq_mul]
    rw [mul_div_mul_left _ _ hk]
  simp only [around, edgeX, edgeY, hX]

/-- The mirror image winds the other way. -/
theorem around_conj (hf : ∀ z, DifferentiableAt ℝ f z) :
    around (fun z => conj (f z)) a b c d = conj (around f a b c d) := by
  have hX : ∀ z v : ℂ, fderiv ℝ (fun z => conj (f z)) z v / conj (f z) = conj (fderiv ℝ f z v / f z) := by
    intro z v
    have := ((Complex.conjCLE : ℂ →L[ℝ] ℂ).hasFDerivAt (x := f z)).comp z (hf z).hasFDerivAt
    have h2 : HasFDerivAt (fun z => conj (f z)) (((Complex.conjCLE : ℂ →L[ℝ] ℂ)).comp (fderiv ℝ f z)) z := this
    rw [h2.fderiv, map_div₀]
    rfl
  simp only [around, edgeX, edgeY, hX, map_add, map_sub]
  simp only [intervalIntegral.intervalIntegral_eq_integral_uIoc, integral_conj, Complex.real_smul, map_mul,
    Complex.conj_ofReal]

/-! ### Once around a point -/

theorem edgeX_log {y : ℝ} {k : ℂ} (hk : k ≠ 0) (hab : a ≤ b) (hs : ∀ x ∈ Set.Icc a b, k * (⟨x, y⟩ : ℂ) ∈ slitPlane) :
    edgeX id a b y = log (k * ⟨b, y⟩) - log (k * ⟨a, y⟩) := by
  have hx0 : ∀ x ∈ Set.Icc a b, (⟨x, y⟩ : ℂ) ≠ 0 := fun x hx h0 => by
    have := hs x hx
    rw [h0, mul_zero] at this
    exact slitPlane_ne_zero this rfl
  have hg : ∀ x ∈ Set.Icc a b, Good id (⟨x, y⟩ : ℂ) := fun x hx => ⟨contDiffAt_id, hx0 x hx⟩
  have hi := intX hab hg
  rw [edgeX, intervalIntegral.integral_eq_sub_of_hasDerivAt (f := fun x : ℝ => log (k * (⟨x, y⟩ : ℂ))) ?_ hi]
  intro x hx
  rw [Set.uIcc_of_le hab] at hx
  refine ((((lineX_deriv x y).const_mul k)).clog_real (hs x hx)).congr_deriv ?_
  have := hx0 x hx
  simp only [fderiv_id, ContinuousLinearMap.id_apply, id]
  field_simp

theorem edgeY_log {x : ℝ} {k : ℂ} (hk : k ≠ 0) (hcd : c ≤ d) (hs : ∀ y ∈ Set.Icc c d, k * (⟨x, y⟩ : ℂ) ∈ slitPlane) :
    edgeY id x c d = log (k * ⟨x, d⟩) - log (k * ⟨x, c⟩) := by
  have hx0 : ∀ y ∈ Set.Icc c d, (⟨x, y⟩ : ℂ) ≠ 0 := fun y hx h0 => by
    have := hs y hx
    rw [h0, mul_zero] at this
    exact slitPlane_ne_zero this rfl
  have hg : ∀ y ∈ Set.Icc c d, Good id (⟨x, y⟩ : ℂ) := fun x hx => ⟨contDiffAt_id, hx0 x hx⟩
  have hi := intY hcd hg
  rw [edgeY, intervalIntegral.integral_eq_sub_of_hasDerivAt (f := fun y : ℝ => log (k * (⟨x, y⟩ : ℂ))) ?_ hi]
  intro y hx
  rw [Set.uIcc_of_le hcd] at hx
  refine ((((lineY_deriv x y).const_mul k)).clog_real (hs y hx)).congr_deriv ?_
  have := hx0 y hx
  simp only [fderiv_id, ContinuousLinearMap.id_apply, id]
  field_simp

theorem log_I_mul {z : ℂ} (hz : 0 < z.re) : log (I * z) = log z + Real.pi / 2 * I := by
  have h0 : z ≠ 0 := fun h => by simp [h] at hz
  have h1 := abs_lt.1 (abs_arg_lt_pi_div_two_iff.2 (Or.inl hz))
  rw [log_mul I_ne_zero h0, log_I, add_comm]
  rw [arg_I]
  constructor <;> linarith [Real.pi_pos, h1.1, h1.2]

theorem log_neg_I_mul {z : ℂ} (hz : 0 < z.re) : log (-I * z) = log z - Real.pi / 2 * I := by
  have h0 : z ≠ 0 := fun h => by simp [h] at hz
  have h1 := abs_lt.1 (abs_arg_lt_pi_div_two_iff.2 (Or.inl hz))
  rw [log_mul (neg_ne_zero.2 I_ne_zero) h0, log_neg_I]
  · ring
  rw [arg_neg_I]
  constructor <;> linarith [Real.pi_pos, h1.1, h1.2]

theorem around_id (ha : a < 0) (hb : 0 < b) (hc : c < 0) (hd : 0 < d) : around id a b c d = 2 * Real.pi * I := by
  have hI : (-I : ℂ) ≠ 0 := neg_ne_zero.2 I_ne_zero
  rw [around, edgeX_log (k := I) I_ne_zero (by linarith) (fun x _ => Or.inl (by simp; linarith)),
    edgeX_log (k := -I) hI (by linarith) (fun x _ => Or.inl (by simp; linarith)),
    edgeY_log (k := 1) one_ne_zero (by linarith) (fun x _ => Or.inl (by simp; linarith)),
    edgeY_log (k := -1) (by norm_num) (by linarith) (fun x _ => Or.inl (by simp; linarith))]
  have e1 : (I * ⟨a, c⟩ : ℂ) = -I * (-1 * ⟨a, c⟩) := by ring
  have e2 : (-I * ⟨a, d⟩ : ℂ) = I * (-1 * ⟨a, d⟩) := by ring
  rw [e1, e2, log_I_mul (z := ⟨b, c⟩) hb, log_neg_I_mul (z := ⟨b, d⟩) hb, log_neg_I_mul (by simpa using ha),
    log_I_mul (by simpa using ha), one_mul, one_mul]
  ring

end Caustics

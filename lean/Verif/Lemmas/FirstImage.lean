import Verif.Spec.Grad
import Verif.Lemmas.Grad
import Verif.Lemmas.Lens
import Mathlib.Analysis.Calculus.DerivativeTest
import Mathlib.Analysis.Calculus.LocalExtr.Basic
import Mathlib.Topology.MetricSpace.Bounded
import Mathlib.Topology.Order.Compact
import Mathlib.Analysis.Calculus.Deriv.Comp
import Mathlib.Analysis.Calculus.Deriv.Add
import Mathlib.Analysis.Calculus.Deriv.Mul

/-! # Minima of the arrival time: existence, first and second order conditions -/

namespace Caustics

open Filter Topology Set

/-- A function that is continuous except at finitely many poles and has bounded sublevel sets attains
its minimum. -/
theorem exists_min_off_poles {f : ℝ × ℝ → ℝ} {E : Set (ℝ × ℝ)} (hE : E.Finite)
    (hc : ∀ p ∉ E, ContinuousAt f p) (hp : ∀ p ∈ E, Tendsto f (𝓝[≠] p) atTop)
    (hb : ∀ C, ∃ R, ∀ p, f p ≤ C → ‖p‖ ≤ R) :
    ∃ p ∉ E, ∀ p' ∉ E, f p ≤ f p' := by
  obtain ⟨p1, hp1⟩ : ∃ p1, p1 ∉ E := by
    by_contra h
    push Not at h
    exact Set.infinite_univ ((Set.eq_univ_of_forall h) ▸ hE)
  set L : Set (ℝ × ℝ) := {p | p ∉ E ∧ f p ≤ f p1} with hL
  have hclosed : IsClosed L := by
    rw [isClosed_iff_frequently]
    intro p hfr
    by_cases hpE : p ∈ E
    · exfalso
      have h1 := (hp p hpE).eventually_gt_atTop (f p1)
      rw [eventually_nhdsWithin_iff] at h1
      obtain ⟨q, hq, hq'⟩ := (hfr.and_eventually h1).exists
      have hne : q ≠ p := fun h => hq.1 (h ▸ hpE)
      exact absurd hq.2 (not_le.mpr (hq' hne))
    · refine ⟨hpE, ?_⟩
      by_contra hlt
      push Not at hlt
      have h1 := (hc p hpE).eventually_const_lt hlt
      obtain ⟨q, hq, hq'⟩ := (hfr.and_eventually h1).exists
      exact absurd hq.2 (not_le.mpr hq')
  have hbdd : Bornology.IsBounded L := by
    obtain ⟨R, hR⟩ := hb (f p1)
    exact isBounded_iff_forall_norm_le.mpr ⟨R, fun p hp => hR p hp.2⟩
  have hcomp := Metric.isCompact_of_isClosed_isBounded hclosed hbdd
  obtain ⟨p, hpL, hmin⟩ := hcomp.exists_isMinOn ⟨p1, hp1, le_rfl⟩
    (fun p hp => (hc p hp.1).continuousWithinAt)
  refine ⟨p, hpL.1, fun p' hp' => ?_⟩
  by_cases h : f p' ≤ f p1
  · exact hmin ⟨hp', h⟩
  · exact hpL.2.trans (not_le.mp h).le

/-- A minimum among all points but finitely many others is a local minimum. -/
theorem isLocalMin_off_poles {f : ℝ × ℝ → ℝ} {E : Set (ℝ × ℝ)} (hE : E.Finite) {p : ℝ × ℝ}
    (hp : p ∉ E) (h : ∀ p' ∉ E, f p ≤ f p') : IsLocalMin f p := by
  filter_upwards [hE.isClosed.isOpen_compl.mem_nhds hp] with q hq using h q hq

/-- First order condition. -/
theorem HasGrad.eq_zero_of_min {u : ℝ → ℝ → ℝ} {gx gy x y : ℝ} (h : HasGrad u gx gy x y)
    (hm : IsLocalMin (fun p : ℝ × ℝ => u p.1 p.2) (x, y)) : gx = 0 ∧ gy = 0 := by
  have h0 := hm.hasFDerivAt_eq_zero h
  have h1 := congrArg (fun L : ℝ × ℝ →L[ℝ] ℝ => L (1, 0)) h0
  have h2 := congrArg (fun L : ℝ × ℝ →L[ℝ] ℝ => L (0, 1)) h0
  simp at h1 h2
  exact ⟨h1, h2⟩

/-- The derivative along a line. -/
theorem HasGrad.line {u : ℝ → ℝ → ℝ} {gx gy x y : ℝ} (a b t : ℝ)
    (h : HasGrad u gx gy (x + t * a) (y + t * b)) :
    HasDerivAt (fun t => u (x + t * a) (y + t * b)) (a * gx + b * gy) t := by
  have h1 : HasDerivAt (fun t : ℝ => (x + t * a, y + t * b)) (a, b) t :=
    (((hasDerivAt_id t).mul_const a).const_add x |>.congr_deriv (one_mul a)).prodMk
      (((hasDerivAt_id t).mul_const b).const_add y |>.congr_deriv (one_mul b))
  have h' : HasFDerivAt (fun p : ℝ × ℝ => u p.1 p.2) ((ContinuousLinearMap.fst ℝ ℝ ℝ).smulRight gx
      + (ContinuousLinearMap.snd ℝ ℝ ℝ).smulRight gy) ((fun t : ℝ => (x + t * a, y + t * b)) t) := h
  have := HasFDerivAt.comp_hasDerivAt t h' h1
  refine this.congr_deriv ?_
  simp

/-- Second order condition along a direction. -/
theorem second_order {T : ℝ → ℝ → ℝ} {g : ℝ → ℝ → ℝ × ℝ} {x y axx axy ayx ayy : ℝ}
    (hT : ∀ᶠ p : ℝ × ℝ in 𝓝 (x, y), HasGrad T (g p.1 p.2).1 (g p.1 p.2).2 p.1 p.2)
    (hg : HasJac g axx axy ayx ayy x y)
    (hm : IsLocalMin (fun p : ℝ × ℝ => T p.1 p.2) (x, y)) (a b : ℝ) :
    0 ≤ a * (a * axx + b * axy) + b * (a * ayx + b * ayy) := by
  by_contra hneg
  push Not at hneg
  have hline : Tendsto (fun t : ℝ => (x + t * a, y + t * b)) (𝓝 0) (𝓝 (x, y)) := by
    have : ContinuousAt (fun t : ℝ => (x + t * a, y + t * b)) 0 := by fun_prop
    simpa [ContinuousAt] using this
  have h0 : IsLocalMin (fun t : ℝ => T (x + t * a) (y + t * b)) 0 := by
    have := hline.eventually hm
    filter_upwards [this] with t ht
    simpa using ht
  have hd : ∀ᶠ t in 𝓝 (0 : ℝ), HasDerivAt (fun t => T (x + t * a) (y + t * b))
      (a * (g (x + t * a) (y + t * b)).1 + b * (g (x + t * a) (y + t * b)).2) t := by
    filter_upwards [hline.eventually hT] with t ht using HasGrad.line a b t ht
  have hx0 : HasJac g axx axy ayx ayy (x + 0 * a) (y + 0 * b) := by simpa using hg
  have hd2 : HasDerivAt (fun t => a * (g (x + t * a) (y + t * b)).1 + b * (g (x + t * a) (y + t * b)).2)
      (a * (a * axx + b * axy) + b * (a * ayx + b * ayy)) 0 :=
    ((HasGrad.line a b 0 hx0.1).const_mul a).add ((HasGrad.line a b 0 hx0.2).const_mul b)
  have hderiv : deriv (fun t => T (x + t * a) (y + t * b)) =ᶠ[𝓝 0]
      fun t => a * (g (x + t * a) (y + t * b)).1 + b * (g (x + t * a) (y + t * b)).2 := by
    filter_upwards [hd] with t ht using ht.deriv
  have hdd : deriv (deriv (fun t => T (x + t * a) (y + t * b))) 0
      = a * (a * axx + b * axy) + b * (a * ayx + b * ayy) := by
    rw [hderiv.deriv_eq, hd2.deriv]
  have hz : deriv (fun t => T (x + t * a) (y + t * b)) 0 = 0 := h0.deriv_eq_zero
  have hmax : IsLocalMax (fun t : ℝ => T (x + t * a) (y + t * b)) 0 :=
    isLocalMax_of_deriv_deriv_neg (by rw [hdd]; exact hneg) hz (hd.self_of_nhds).continuousAt
  have hconst : (fun t : ℝ => T (x + t * a) (y + t * b)) =ᶠ[𝓝 0]
      fun _ => T (x + 0 * a) (y + 0 * b) := by
    filter_upwards [h0, hmax] with t h1 h2 using le_antisymm h2 h1
  have h3 : deriv (fun t => T (x + t * a) (y + t * b)) =ᶠ[𝓝 0] fun _ => (0 : ℝ) := by
    have := hconst.eventuallyEq_nhds
    filter_upwards [this] with t ht
    rw [ht.deriv_eq, deriv_const]
  have h4 := h3.deriv_eq
  rw [hdd, deriv_const] at h4
  linarith

/-- A non-negative quadratic form has a non-negative determinant. -/
theorem det_nonneg_of_form {a b c : ℝ} (h : ∀ u v : ℝ, 0 ≤ u * (u * a + v * b) + v * (u * b + v * c)) :
    0 ≤ a ∧ 0 ≤ c ∧ 0 ≤ a * c - b * b := by
  have ha : 0 ≤ a := by simpa using h 1 0
  have hc : 0 ≤ c := by simpa using h 0 1
  refine ⟨ha, hc, ?_⟩
  rcases ha.eq_or_lt with h0 | h0
  · rcases hc.eq_or_lt with h1 | h1
    · have h2 := h 1 1
      have h3 := h 1 (-1)
      rw [← h0, ← h1] at h2 h3 ⊢
      have : b = 0 := by linarith
      simp [this]
    · have h2 := h c (-b)
      have e : c * (c * a + -b * b) + -b * (c * b + -b * c) = c * (a * c - b * b) := by ring
      rw [e] at h2
      exact nonneg_of_mul_nonneg_right h2 h1
  · have h2 := h b (-a)
    have e : b * (b * a + -a * b) + -a * (b * b + -a * c) = a * (a * c - b * b) := by ring
    rw [e] at h2
    exact nonneg_of_mul_nonneg_right h2 h0

/-- Differentiability bounds a function below by its tangent plane. -/
theorem HasGrad.lower {u : ℝ → ℝ → ℝ} {gx gy x y : ℝ} (h : HasGrad u gx gy x y) {ε : ℝ} (hε : 0 < ε) :
    ∀ᶠ k : ℝ × ℝ in 𝓝 (0, 0),
      u x y + (k.1 * gx + k.2 * gy) - ε * ‖k‖ ≤ u (x + k.1) (y + k.2) := by
  have h1 := (hasFDerivAt_iff_isLittleO_nhds_zero.mp h).bound hε
  filter_upwards [h1] with k hk
  have hk' : |u (x + k.1) (y + k.2) - u x y - (k.1 * gx + k.2 * gy)| ≤ ε * ‖k‖ := hk
  have := (abs_le.mp hk').1
  linarith

/-- `u` has an upward cone at `(x, y)`: near there it lies above a tilted cone of positive opening. -/
def HasCusp (u : ℝ → ℝ → ℝ) (x y : ℝ) : Prop :=
  ∃ gx gy c : ℝ, 0 < c ∧ ∀ᶠ k : ℝ × ℝ in 𝓝 (0, 0),
    u x y + (k.1 * gx + k.2 * gy) + c * ‖k‖ ≤ u (x + k.1) (y + k.2)

theorem HasCusp.add {u v : ℝ → ℝ → ℝ} {x y : ℝ} (hu : HasCusp u x y) (hv : HasCusp v x y) :
    HasCusp (fun x y => u x y + v x y) x y := by
  obtain ⟨ax, ay, c, hc, h⟩ := hu
  obtain ⟨bx, by', d, hd, h'⟩ := hv
  refine ⟨ax + bx, ay + by', c + d, by linarith, ?_⟩
  filter_upwards [h, h'] with k h1 h2
  nlinarith

theorem HasCusp.add_grad {u v : ℝ → ℝ → ℝ} {x y gx gy : ℝ} (hu : HasCusp u x y)
    (hv : HasGrad v gx gy x y) : HasCusp (fun x y => u x y + v x y) x y := by
  obtain ⟨ax, ay, c, hc, h⟩ := hu
  refine ⟨ax + gx, ay + gy, c / 2, by linarith, ?_⟩
  filter_upwards [h, hv.lower (half_pos hc)] with k h1 h2
  nlinarith

theorem HasCusp.congr {u v : ℝ → ℝ → ℝ} {x y : ℝ} (hu : HasCusp u x y) (h : ∀ x y, u x y = v x y) :
    HasCusp v x y := by
  have : u = v := funext fun x => funext fun y => h x y
  rwa [← this]

/-- The arrival time has no minimum where the potential has a cusp. -/
theorem HasCusp.not_min {u : ℝ → ℝ → ℝ} {x y : ℝ} (hu : HasCusp u x y) (bx bys : ℝ) :
    ¬ IsLocalMin (fun p : ℝ × ℝ => ((p.1 - bx) ^ 2 + (p.2 - bys) ^ 2) / 2 - u p.1 p.2) (x, y) := by
  intro hm
  obtain ⟨gx, gy, c, hc, h⟩ := hu
  obtain ⟨e, he1, he2⟩ : ∃ e : ℝ, e ^ 2 = 1 ∧ e * (x - bx - gx) ≤ 0 := by
    rcases le_total 0 (x - bx - gx) with h0 | h0
    · exact ⟨-1, by norm_num, by linarith⟩
    · exact ⟨1, by norm_num, by linarith⟩
  have habs : |e| = 1 := by
    rw [← sq_abs] at he1
    exact (pow_eq_one_iff_of_nonneg (abs_nonneg e) two_ne_zero).mp he1
  have hk : Tendsto (fun t : ℝ => (t * e, (0 : ℝ))) (𝓝 0) (𝓝 (0, 0)) := by
    have : ContinuousAt (fun t : ℝ => (t * e, (0 : ℝ))) 0 := by fun_prop
    simpa [ContinuousAt] using this
  have hl : Tendsto (fun t : ℝ => (x + t * e, y + 0)) (𝓝 0) (𝓝 (x, y)) := by
    have : ContinuousAt (fun t : ℝ => (x + t * e, y + 0)) 0 := by fun_prop
    simpa [ContinuousAt] using this
  have h1 := hk.eventually h
  have h2 := hl.eventually hm
  have h3 : ∀ᶠ t : ℝ in 𝓝[>] 0, t < c := by
    have : ∀ᶠ t : ℝ in 𝓝 0, t < c := Iio_mem_nhds hc
    exact this.filter_mono nhdsWithin_le_nhds
  have h4 : ∀ᶠ t : ℝ in 𝓝[>] (0 : ℝ), 0 < t := self_mem_nhdsWithin
  obtain ⟨t, a1, a2, a3, a4⟩ := ((h1.filter_mono nhdsWithin_le_nhds).and
    ((h2.filter_mono nhdsWithin_le_nhds).and (h3.and h4))).exists
  have hn : ‖((t * e, 0) : ℝ × ℝ)‖ = t := by
    rw [Prod.norm_mk, norm_zero, max_eq_left (norm_nonneg _), Real.norm_eq_abs, abs_mul, habs,
      mul_one, abs_of_pos a4]
  simp only [hn] at a1
  simp only at a2
  simp only [add_zero, zero_mul] at a1 a2
  have e3 : (x + t * e - bx) ^ 2 = (x - bx) ^ 2 + 2 * t * (e * (x - bx)) + t ^ 2 := by
    linear_combination t ^ 2 * he1
  nlinarith [mul_nonneg a4.le (neg_nonneg.mpr he2), mul_pos a4 (sub_pos.mpr a3)]

end Caustics

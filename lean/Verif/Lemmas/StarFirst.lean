import Verif.Lemmas.StarField
import Verif.Lemmas.FirstImage
import Mathlib.Analysis.SpecialFunctions.Log.Deriv

/-!
A field of point masses in a field that does not overfocus has an image: the minimum of the arrival time.
-/

namespace Caustics

open ComplexConjugate Filter Topology

/-- Arrival time in a field of point masses. -/
noncomputable def starArrival (S : Finset ℂ) (m : ℂ → ℝ) (a : ℝ) (g ζ : ℂ) (x y : ℝ) : ℝ :=
  a / 2 * (x * x + y * y) - (g.re / 2 * (x * x - y * y) + g.im * (x * y)) - (ζ.re * x + ζ.im * y) -
    ∑ i ∈ S, m i * (1 / 2 * Real.log ((x - i.re) * (x - i.re) + (y - i.im) * (y - i.im)))

variable {S : Finset ℂ} {m : ℂ → ℝ} {a : ℝ} {g ζ : ℂ} {x y : ℝ}

theorem star_dist_pos {i : ℂ} (h : (⟨x, y⟩ : ℂ) ≠ i) :
    0 < (x - i.re) * (x - i.re) + (y - i.im) * (y - i.im) := by
  have : x - i.re ≠ 0 ∨ y - i.im ≠ 0 := by
    by_contra hc
    push Not at hc
    exact h (Complex.ext (by simpa [sub_eq_zero] using hc.1) (by simpa [sub_eq_zero] using hc.2))
  have e : (x - i.re) * (x - i.re) + (y - i.im) * (y - i.im) = (x - i.re) ^ 2 + (y - i.im) ^ 2 := by ring
  rw [e]
  rcases this with h | h <;> positivity

theorem starArrival_grad (h : (⟨x, y⟩ : ℂ) ∉ S) :
    HasGrad (starArrival S m a g ζ)
      (a * x - (g.re * x + g.im * y) - ζ.re - ∑ i ∈ S, m i * ((x - i.re) / ((x - i.re) ^ 2 + (y - i.im) ^ 2)))
      (a * y - (g.im * x - g.re * y) - ζ.im - ∑ i ∈ S, m i * ((y - i.im) / ((x - i.re) ^ 2 + (y - i.im) ^ 2))) x y := by
  have hx := HasGrad.fst x y
  have hy := HasGrad.snd x y
  have hs := HasGrad.sum S (u := fun i x y => m i * (1 / 2 * Real.log ((x - i.re) * (x - i.re) + (y - i.im) * (y - i.im))))
    (x := x) (y := y) (ux := fun i => m i * ((x - i.re) / ((x - i.re) ^ 2 + (y - i.im) ^ 2)))
    (uy := fun i => m i * ((y - i.im) / ((x - i.re) ^ 2 + (y - i.im) ^ 2))) (by
      intro i hi
      have hp : 0 < (x - i.re) * (x - i.re) + (y - i.im) * (y - i.im) :=
        star_dist_pos fun e => h (e ▸ hi)
      have hX := hx.sub (HasGrad.const i.re x y)
      have hY := hy.sub (HasGrad.const i.im x y)
      have hl := ((hX.mul hX).add (hY.mul hY)).comp (f := Real.log) (Real.hasDerivAt_log hp.ne')
      have e : (x - i.re) ^ 2 + (y - i.im) ^ 2 = (x - i.re) * (x - i.re) + (y - i.im) * (y - i.im) := by ring
      refine ((hl.const_mul (1 / 2)).const_mul (m i)).congr ?_ ?_ <;>
      · rw [e, div_eq_inv_mul]
        ring)
  have := ((((((hx.mul hx).add (hy.mul hy)).const_mul (a / 2)).sub
    ((((hx.mul hx).sub (hy.mul hy)).const_mul (g.re / 2)).add ((hx.mul hy).const_mul g.im))).sub
    ((hx.const_mul ζ.re).add (hy.const_mul ζ.im))).sub hs)
  exact this.congr (by ring) (by ring)

theorem starArrival_image (h : (⟨x, y⟩ : ℂ) ∉ S)
    (h1 : a * x - (g.re * x + g.im * y) - ζ.re - ∑ i ∈ S, m i * ((x - i.re) / ((x - i.re) ^ 2 + (y - i.im) ^ 2)) = 0)
    (h2 : a * y - (g.im * x - g.re * y) - ζ.im - ∑ i ∈ S, m i * ((y - i.im) / ((x - i.re) ^ 2 + (y - i.im) ^ 2)) = 0) :
    StarImage S (fun i => m i) a g ζ ⟨x, y⟩ := by
  refine ⟨h, ?_⟩
  have e : ∀ i ∈ S, (m i : ℂ) / (conj (⟨x, y⟩ : ℂ) - conj i) =
      ⟨m i * ((x - i.re) / ((x - i.re) ^ 2 + (y - i.im) ^ 2)), m i * ((y - i.im) / ((x - i.re) ^ 2 + (y - i.im) ^ 2))⟩ := by
    intro i hi
    apply Complex.ext <;>
    · simp only [Complex.div_re, Complex.div_im, Complex.normSq_apply, Complex.sub_re, Complex.sub_im, Complex.conj_re,
        Complex.conj_im, Complex.ofReal_re, Complex.ofReal_im]
      have e : (x - i.re) * (x - i.re) + (-y - -i.im) * (-y - -i.im) = (x - i.re) ^ 2 + (y - i.im) ^ 2 := by ring
      rw [e]
      ring
  rw [Finset.sum_congr rfl e]
  apply Complex.ext
  · rw [Complex.sub_re, Complex.re_sum]
    simp only [Complex.sub_re, Complex.mul_re, Complex.ofReal_re, Complex.ofReal_im, Complex.conj_re, Complex.conj_im]
    linarith
  · rw [Complex.sub_im, Complex.im_sum]
    simp only [Complex.sub_im, Complex.mul_im, Complex.ofReal_re, Complex.ofReal_im, Complex.conj_re, Complex.conj_im]
    linarith

theorem half_log_le {i : ℂ} (x y : ℝ) :
    1 / 2 * Real.log ((x - i.re) * (x - i.re) + (y - i.im) * (y - i.im)) ≤ ‖(⟨x, y⟩ : ℂ)‖ + ‖i‖ := by
  have e : (x - i.re) * (x - i.re) + (y - i.im) * (y - i.im) = ‖(⟨x, y⟩ : ℂ) - i‖ ^ 2 := by
    rw [← Complex.normSq_eq_norm_sq, Complex.normSq_apply]
    simp
  rw [e, Real.log_pow]
  have h1 := Real.log_le_self (norm_nonneg ((⟨x, y⟩ : ℂ) - i))
  have h2 := norm_sub_le (⟨x, y⟩ : ℂ) i
  push_cast
  linarith

theorem starArrival_coercive (hm : ∀ i ∈ S, 0 ≤ m i) (ha : ‖g‖ < a) (C : ℝ) :
    ∃ R, ∀ p : ℝ × ℝ, starArrival S m a g ζ p.1 p.2 ≤ C → ‖p‖ ≤ R := by
  set B := ‖ζ‖ + ∑ i ∈ S, m i with hB
  set D := ∑ i ∈ S, m i * ‖i‖ with hD
  have hM : 0 ≤ ∑ i ∈ S, m i := Finset.sum_nonneg hm
  have hB0 : 0 ≤ B := by positivity
  have hD0 : 0 ≤ D := Finset.sum_nonneg fun i hi => mul_nonneg (hm i hi) (norm_nonneg i)
  have hk : 0 < (a - ‖g‖) / 2 := by linarith
  refine ⟨(B + (D + |C|)) / ((a - ‖g‖) / 2) + 1, fun p hp => ?_⟩
  set w : ℂ := ⟨p.1, p.2⟩ with hw
  have hn : ‖p‖ ≤ ‖w‖ := by
    rw [Prod.norm_def]
    refine max_le ?_ ?_
    · exact Complex.abs_re_le_norm w
    · exact Complex.abs_im_le_norm w
  refine hn.trans ?_
  have hr2 : ‖w‖ ^ 2 = p.1 * p.1 + p.2 * p.2 := by
    rw [← Complex.normSq_eq_norm_sq, Complex.normSq_apply]
  have hsh : g.re * (p.1 * p.1 - p.2 * p.2) + 2 * (g.im * (p.1 * p.2)) ≤ ‖g‖ * ‖w‖ ^ 2 := by
    have h1 := Complex.re_le_norm (g * conj w * conj w)
    rw [norm_mul, norm_mul, Complex.norm_conj, mul_assoc ‖g‖, ← sq] at h1
    refine le_trans (le_of_eq ?_) h1
    simp only [Complex.mul_re, Complex.mul_im, Complex.conj_re, Complex.conj_im, hw]
    ring
  have hli : ζ.re * p.1 + ζ.im * p.2 ≤ ‖ζ‖ * ‖w‖ := by
    have h1 := Complex.re_le_norm (ζ * conj w)
    rw [norm_mul, Complex.norm_conj] at h1
    refine le_trans (le_of_eq ?_) h1
    simp only [Complex.mul_re, Complex.conj_re, Complex.conj_im, hw]
    ring
  have hlog : ∑ i ∈ S, m i * (1 / 2 * Real.log ((p.1 - i.re) * (p.1 - i.re) + (p.2 - i.im) * (p.2 - i.im))) ≤
      (∑ i ∈ S, m i) * ‖w‖ + D := by
    rw [hD, Finset.sum_mul, ← Finset.sum_add_distrib]
    refine Finset.sum_le_sum fun i hi => ?_
    rw [← mul_add]
    exact mul_le_mul_of_nonneg_left (half_log_le _ _) (hm i hi)
  have hC := le_abs_self C
  rw [starArrival] at hp
  have hq : (a - ‖g‖) / 2 * ‖w‖ ^ 2 ≤ B * ‖w‖ + (D + |C|) := by
    rw [hB]
    rw [← hr2] at hp
    clear_value B D w
    linarith
  by_contra hlt
  push Not at hlt
  have hw0 := norm_nonneg w
  have hD1 : 0 ≤ D + |C| := by positivity
  have h2 : B + (D + |C|) < (a - ‖g‖) / 2 * (‖w‖ - 1) := by
    rw [mul_comm, ← div_lt_iff₀ hk]
    linarith
  have hr1 : 1 < ‖w‖ := by
    have : 0 ≤ (B + (D + |C|)) / ((a - ‖g‖) / 2) := by positivity
    linarith
  nlinarith [mul_pos (sub_pos.mpr hr1) hk, mul_lt_mul_of_pos_right h2 (by linarith : 0 < ‖w‖)]

theorem star_exists (hm : ∀ i ∈ S, 0 < m i) (ha : ‖g‖ < a) : ∃ w, StarImage S (fun i => m i) a g ζ w := by
  classical
  let E : Set (ℝ × ℝ) := {p | (⟨p.1, p.2⟩ : ℂ) ∈ S}
  have hinj : Function.Injective fun p : ℝ × ℝ => (⟨p.1, p.2⟩ : ℂ) := fun p q h =>
    Prod.ext (congrArg Complex.re h) (congrArg Complex.im h)
  have hE : E.Finite := Set.Finite.preimage hinj.injOn (Finset.finite_toSet S)
  have hcont : ∀ (T : Finset ℂ) (p : ℝ × ℝ), (⟨p.1, p.2⟩ : ℂ) ∉ T →
      ContinuousAt (fun p : ℝ × ℝ => starArrival T m a g ζ p.1 p.2) p := fun T p hp =>
    HasFDerivAt.continuousAt (starArrival_grad hp)
  have hpole : ∀ p ∈ E, Tendsto (fun p : ℝ × ℝ => starArrival S m a g ζ p.1 p.2) (𝓝[≠] p) atTop := by
    intro p hp
    set i : ℂ := ⟨p.1, p.2⟩ with hi
    have hsplit : ∀ q : ℝ × ℝ, starArrival S m a g ζ q.1 q.2 = starArrival (S.erase i) m a g ζ q.1 q.2 +
        m i * (1 / 2 * -Real.log ((q.1 - i.re) * (q.1 - i.re) + (q.2 - i.im) * (q.2 - i.im))) := by
      intro q
      rw [starArrival, starArrival, ← Finset.add_sum_erase S _ hp]
      ring
    simp only [hsplit]
    have h1 := (hcont (S.erase i) p (by simp [hi])).tendsto.mono_left (nhdsWithin_le_nhds (s := {p}ᶜ))
    refine h1.add_atTop ((Tendsto.const_mul_atTop (by norm_num) ?_).const_mul_atTop (hm i hp))
    have hc : Continuous fun q : ℝ × ℝ => (q.1 - i.re) * (q.1 - i.re) + (q.2 - i.im) * (q.2 - i.im) := by fun_prop
    have h0 : Tendsto (fun q : ℝ × ℝ => (q.1 - i.re) * (q.1 - i.re) + (q.2 - i.im) * (q.2 - i.im)) (𝓝[≠] p)
        (𝓝[>] 0) := by
      refine tendsto_nhdsWithin_iff.mpr ⟨?_, ?_⟩
      · have := (hc.tendsto p).mono_left (nhdsWithin_le_nhds (s := {p}ᶜ))
        simpa [hi] using this
      · filter_upwards [self_mem_nhdsWithin] with q hq
        exact star_dist_pos fun e => hq (hinj (e.trans hi))
    exact tendsto_neg_atBot_atTop.comp (Real.tendsto_log_nhdsGT_zero.comp h0)
  obtain ⟨p, hp, hmin⟩ := exists_min_off_poles (f := fun p => starArrival S m a g ζ p.1 p.2) hE
    (fun p hp => hcont S p hp) hpole (starArrival_coercive (fun i hi => (hm i hi).le) ha)
  obtain ⟨h1, h2⟩ := (starArrival_grad (m := m) (a := a) (g := g) (ζ := ζ) hp).eq_zero_of_min
      (isLocalMin_off_poles hE hp hmin)
  exact ⟨_, starArrival_image hp h1 h2⟩

end Caustics

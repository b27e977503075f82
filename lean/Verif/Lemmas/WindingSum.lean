import Verif.Lemmas.Winding
import Mathlib.Topology.Order.MonotoneConvergence
import Mathlib.Analysis.SpecificLimits.Basic
import Mathlib.Tactic.Positivity

/-!
The winding number around a rectangle is the sum of the indices of the special points inside.
-/

namespace Caustics

open ComplexConjugate Filter Topology Complex MeasureTheory

variable {f h : ℂ → ℂ} {a b c d : ℝ}

/-! ### Indices -/

theorem around_shift (p : ℂ) :
    around (fun z => f (z - p)) a b c d = around f (a - p.re) (b - p.re) (c - p.im) (d - p.im) := by
  have e : ∀ x y : ℝ, (⟨x, y⟩ : ℂ) - p = ⟨x - p.re, y - p.im⟩ := fun x y => rfl
  have hX : ∀ y, edgeX (fun z => f (z - p)) a b y = edgeX f (a - p.re) (b - p.re) (y - p.im) := by
    intro y
    rw [edgeX, edgeX, ← intervalIntegral.integral_comp_sub_right]
    refine intervalIntegral.integral_congr fun t _ => ?_
    simp only [← e, fderiv_comp_sub (f := f) p]
  have hY : ∀ x, edgeY (fun z => f (z - p)) x c d = edgeY f (x - p.re) (c - p.im) (d - p.im) := by
    intro x
    rw [edgeY, edgeY, ← intervalIntegral.integral_comp_sub_right]
    refine intervalIntegral.integral_congr fun t _ => ?_
    simp only [← e, fderiv_comp_sub (f := f) p]
  simp only [around, hX, hY]

/-- `f` winds `k` times around every small rectangle that contains `p`. -/
def HasIndex (f : ℂ → ℂ) (p : ℂ) (k : ℤ) : Prop :=
  ∃ δ > 0, ∀ a b c d : ℝ, a < p.re → p.re < b → c < p.im → p.im < d → b - a < δ → d - c < δ →
    around f a b c d = 2 * Real.pi * I * k

theorem rect_close {δ : ℝ} {p z : ℂ} (h1 : a ≤ p.re) (h2 : p.re ≤ b) (h3 : c ≤ p.im) (h4 : p.im ≤ d) (h5 : b - a < δ / 2)
    (h6 : d - c < δ / 2) (hx : z.re ∈ Set.Icc a b) (hy : z.im ∈ Set.Icc c d) : dist z p < δ := by
  rw [dist_eq_norm]
  refine (Complex.norm_le_abs_re_add_abs_im _).trans_lt ?_
  have k1 : |(z - p).re| ≤ b - a := by
    rw [sub_re, abs_le]
    constructor <;> linarith [hx.1, hx.2]
  have k2 : |(z - p).im| ≤ d - c := by
    rw [sub_im, abs_le]
    constructor <;> linarith [hy.1, hy.2]
  linarith

theorem goodRect_of {p : ℂ → Prop} (hp : ∀ z, p z → Good f z) (hab : a ≤ b) (hcd : c ≤ d)
    (h : ∀ z : ℂ, z.re ∈ Set.Icc a b → z.im ∈ Set.Icc c d → (z.re = a ∨ z.re = b ∨ z.im = c ∨ z.im = d) → p z) :
    GoodRect f a b c d := by
  have ma : a ∈ Set.Icc a b := ⟨le_rfl, hab⟩
  have mb : b ∈ Set.Icc a b := ⟨hab, le_rfl⟩
  have mc : c ∈ Set.Icc c d := ⟨le_rfl, hcd⟩
  have md : d ∈ Set.Icc c d := ⟨hcd, le_rfl⟩
  exact ⟨hab, hcd, fun x hx => hp _ (h ⟨x, c⟩ hx mc (by simp)), fun x hx => hp _ (h ⟨x, d⟩ hx md (by simp)),
    fun x hx => hp _ (h ⟨a, x⟩ ma hx (by simp)), fun x hx => hp _ (h ⟨b, x⟩ mb hx (by simp))⟩

/-- A map that is close to one with a known winding number. -/
theorem hasIndex_of_slit {p : ℂ} {k : ℤ} (hf : ∀ᶠ z in 𝓝[≠] p, Good f z ∧ Good h z ∧ f z / h z ∈ slitPlane)
    (hh : ∀ a b c d : ℝ, a < p.re → p.re < b → c < p.im → p.im < d → around h a b c d = 2 * Real.pi * I * k) :
    HasIndex f p k := by
  rw [eventually_nhdsWithin_iff, Metric.eventually_nhds_iff] at hf
  obtain ⟨δ, hδ, hf⟩ := hf
  refine ⟨δ / 2, half_pos hδ, fun a b c d h1 h2 h3 h4 h5 h6 => ?_⟩
  have key : ∀ z : ℂ, z.re ∈ Set.Icc a b → z.im ∈ Set.Icc c d → (z.re = a ∨ z.re = b ∨ z.im = c ∨ z.im = d) →
      Good f z ∧ Good h z ∧ f z / h z ∈ slitPlane := by
    intro z hx hy he
    refine hf (rect_close h1.le h2.le h3.le h4.le h5 h6 hx hy) ?_
    rintro rfl
    rcases he with he | he | he | he <;> linarith
  rw [around_slit (goodRect_of (fun z hz => hz.1) (by linarith) (by linarith) key)
    (goodRect_of (fun z hz => hz.2.1) (by linarith) (by linarith) key) fun z hx hy he => (key z hx hy he).2.2]
  exact hh a b c d h1 h2 h3 h4

theorem around_linear {p k : ℂ} (hk : k ≠ 0) (h1 : a < p.re) (h2 : p.re < b) (h3 : c < p.im) (h4 : p.im < d) :
    around (fun z => k * (z - p)) a b c d = 2 * Real.pi * I := by
  rw [around_const_mul hk (f := fun z => z - p) fun z => differentiableAt_id.sub_const p]
  have := around_shift (f := id) (a := a) (b := b) (c := c) (d := d) p
  simp only [id] at this
  rw [this]
  exact around_id (by linarith) (by linarith) (by linarith) (by linarith)

theorem around_antilinear {p k : ℂ} (hk : k ≠ 0) (h1 : a < p.re) (h2 : p.re < b) (h3 : c < p.im) (h4 : p.im < d) :
    around (fun z => k * conj (z - p)) a b c d = -(2 * Real.pi * I) := by
  have hd : ∀ z, DifferentiableAt ℝ (fun z => conj (z - p)) z := fun z =>
    ((Complex.conjCLE : ℂ →L[ℝ] ℂ).differentiableAt).comp z (differentiableAt_id.sub_const p)
  rw [around_const_mul hk (f := fun z => conj (z - p)) hd,
    around_conj (f := fun z => z - p) fun z => differentiableAt_id.sub_const p]
  have := around_linear (a := a) (b := b) (c := c) (d := d) (k := 1) one_ne_zero h1 h2 h3 h4
  simp only [one_mul] at this
  rw [this]
  simp only [map_mul, Complex.conj_I, Complex.conj_ofReal, map_ofNat]
  ring

theorem good_linear {p k z : ℂ} (hk : k ≠ 0) (hz : z ≠ p) : Good (fun z => k * (z - p)) z :=
  ⟨contDiffAt_const.mul (contDiffAt_id.sub contDiffAt_const), mul_ne_zero hk (sub_ne_zero.2 hz)⟩

theorem good_antilinear {p k z : ℂ} (hk : k ≠ 0) (hz : z ≠ p) : Good (fun z => k * conj (z - p)) z :=
  ⟨contDiffAt_const.mul ((Complex.conjCLE : ℂ →L[ℝ] ℂ).contDiff.contDiffAt.comp z (contDiffAt_id.sub contDiffAt_const)),
    mul_ne_zero hk ((map_ne_zero _).2 (sub_ne_zero.2 hz))⟩

theorem hasIndex_one {p k : ℂ} (hk : k ≠ 0) (hf : ∀ᶠ z in 𝓝[≠] p, Good f z ∧ f z / (k * (z - p)) ∈ slitPlane) :
    HasIndex f p 1 := by
  refine hasIndex_of_slit (h := fun z => k * (z - p)) ?_ fun a b c d h1 h2 h3 h4 => ?_
  · filter_upwards [hf, self_mem_nhdsWithin] with z hz hne
    exact ⟨hz.1, good_linear hk hne, hz.2⟩
  · rw [around_linear hk h1 h2 h3 h4, Int.cast_one, mul_one]

theorem hasIndex_neg_one {p k : ℂ} (hk : k ≠ 0)
    (hf : ∀ᶠ z in 𝓝[≠] p, Good f z ∧ f z / (k * conj (z - p)) ∈ slitPlane) : HasIndex f p (-1) := by
  refine hasIndex_of_slit (h := fun z => k * conj (z - p)) ?_ fun a b c d h1 h2 h3 h4 => ?_
  · filter_upwards [hf, self_mem_nhdsWithin] with z hz hne
    exact ⟨hz.1, good_antilinear hk hne, hz.2⟩
  · rw [around_antilinear hk h1 h2 h3 h4]
    push_cast
    ring

/-- A point where `f` is continuous and not zero. -/
theorem hasIndex_zero {p : ℂ} (hc : ContinuousAt f p) (h0 : f p ≠ 0) (hf : ∀ᶠ z in 𝓝[≠] p, Good f z) :
    HasIndex f p 0 := by
  refine hasIndex_of_slit (h := fun _ => f p) ?_ fun a b c d _ _ _ _ => by simp [around_const]
  have h1 : ∀ᶠ z in 𝓝[≠] p, ‖f z - f p‖ < ‖f p‖ := by
    refine (Metric.continuousAt_iff'.1 hc ‖f p‖ (norm_pos_iff.2 h0)).filter_mono nhdsWithin_le_nhds |>.mono fun z hz => ?_
    rwa [dist_eq_norm] at hz
  filter_upwards [hf, h1] with z hz hz1
  exact ⟨hz, ⟨contDiffAt_const, h0⟩, near_slit h0 hz1⟩

theorem contDiffAt_near {p : ℂ} (h1 : ContDiffAt ℝ 1 f p) : ∀ᶠ z in 𝓝 p, ContDiffAt ℝ 1 f z :=
  h1.eventually (by simp)

/-- A regular zero. -/
theorem regular_zero {p α β : ℂ} (hf : ContDiffAt ℝ 1 f p) (h0 : f p = 0)
    (hd : ∀ w, fderiv ℝ f p w = α * w + β * conj w) (hreg : ‖α‖ ≠ ‖β‖) :
    (∀ᶠ z in 𝓝[≠] p, Good f z) ∧ HasIndex f p (if ‖β‖ < ‖α‖ then 1 else -1) := by
  have hcd := (contDiffAt_near hf).filter_mono (nhdsWithin_le_nhds (s := {p}ᶜ))
  have hfd := (hf.differentiableAt one_ne_zero).hasFDerivAt
  have hlit : ∀ ε > 0, ∀ᶠ z in 𝓝[≠] p, ‖f z - (α * (z - p) + β * conj (z - p))‖ ≤ ε * ‖z - p‖ := by
    intro ε hε
    have := (hasFDerivAt_iff_isLittleO.1 hfd).def hε
    refine (this.filter_mono nhdsWithin_le_nhds).mono fun z hz => ?_
    rwa [h0, sub_zero, hd] at hz
  have hmain : ∀ α β : ℂ, ‖β‖ < ‖α‖ → ∀ u v e w : ℂ, u = α * v + β * e → ‖v‖ = ‖e‖ → v ≠ 0 →
      ‖w - u‖ ≤ (‖α‖ - ‖β‖) / 2 * ‖v‖ → w ≠ 0 ∧ w / (α * v) ∈ slitPlane := by
    intro α β hlt u v e w hu hve hv hw
    have hα : α ≠ 0 := norm_pos_iff.1 ((norm_nonneg _).trans_lt hlt)
    have hv0 : 0 < ‖v‖ := norm_pos_iff.2 hv
    have h1 : ‖w - α * v‖ < ‖α * v‖ := by
      have : w - α * v = (w - u) + β * e := by rw [hu]; ring
      rw [this]
      refine (norm_add_le _ _).trans_lt ?_
      rw [norm_mul, norm_mul, ← hve]
      nlinarith
    refine ⟨?_, near_slit (mul_ne_zero hα hv) h1⟩
    rintro rfl
    rw [zero_sub, norm_neg] at h1
    exact lt_irrefl _ h1
  rcases lt_or_gt_of_ne hreg with hlt | hlt
  · have hβ : β ≠ 0 := norm_pos_iff.1 ((norm_nonneg _).trans_lt hlt)
    have : ∀ᶠ z in 𝓝[≠] p, Good f z ∧ f z / (β * conj (z - p)) ∈ slitPlane := by
      filter_upwards [hcd, hlit ((‖β‖ - ‖α‖) / 2) (by linarith), self_mem_nhdsWithin] with z h1 h2 h3
      have h3' : z - p ≠ 0 := sub_ne_zero.2 h3
      have := hmain β α hlt (α * (z - p) + β * conj (z - p)) (conj (z - p)) (z - p) (f z) (by ring)
        (Complex.norm_conj _) ((map_ne_zero _).2 h3') (by rw [Complex.norm_conj]; exact h2)
      exact ⟨⟨h1, this.1⟩, this.2⟩
    refine ⟨this.mono fun z hz => hz.1, ?_⟩
    rw [if_neg (not_lt.2 hlt.le)]
    exact hasIndex_neg_one hβ this
  · have hα : α ≠ 0 := norm_pos_iff.1 ((norm_nonneg _).trans_lt hlt)
    have : ∀ᶠ z in 𝓝[≠] p, Good f z ∧ f z / (α * (z - p)) ∈ slitPlane := by
      filter_upwards [hcd, hlit ((‖α‖ - ‖β‖) / 2) (by linarith), self_mem_nhdsWithin] with z h1 h2 h3
      have h3' : z - p ≠ 0 := sub_ne_zero.2 h3
      have := hmain α β hlt (α * (z - p) + β * conj (z - p)) (z - p) (conj (z - p)) (f z) rfl
        (Complex.norm_conj _).symm h3' h2
      exact ⟨⟨h1, this.1⟩, this.2⟩
    refine ⟨this.mono fun z hz => hz.1, ?_⟩
    rw [if_pos hlt]
    exact hasIndex_one hα this

/-! ### The sum of the indices -/

/-- The special points inside a rectangle, each with its index. -/
noncomputable def inside (Z : Finset ℂ) (k : ℂ → ℤ) (a b c d : ℝ) : ℤ := by
  classical exact ∑ p ∈ Z, if a < p.re ∧ p.re < b ∧ c < p.im ∧ p.im < d then k p else 0

/-- No special point level with an edge. -/
def Avoids (Z : Finset ℂ) (a b c d : ℝ) : Prop := ∀ p ∈ Z, p.re ≠ a ∧ p.re ≠ b ∧ p.im ≠ c ∧ p.im ≠ d

theorem inside_cutX {Z : Finset ℂ} {k : ℂ → ℤ} {e : ℝ} (h1 : a < e) (h2 : e < b) (he : ∀ p ∈ Z, p.re ≠ e) :
    inside Z k a b c d = inside Z k a e c d + inside Z k e b c d := by
  classical
  rw [inside, inside, inside, ← Finset.sum_add_distrib]
  refine Finset.sum_congr rfl fun p hp => ?_
  rcases lt_or_gt_of_ne (he p hp) with h | h
  · have n1 : ¬ e < p.re := not_lt.2 h.le
    simp [h, h.trans h2, n1]
  · have n1 : ¬ p.re < e := not_lt.2 h.le
    simp [h, h1.trans h, n1]

theorem inside_cutY {Z : Finset ℂ} {k : ℂ → ℤ} {e : ℝ} (h1 : c < e) (h2 : e < d) (he : ∀ p ∈ Z, p.im ≠ e) :
    inside Z k a b c d = inside Z k a b c e + inside Z k a b e d := by
  classical
  rw [inside, inside, inside, ← Finset.sum_add_distrib]
  refine Finset.sum_congr rfl fun p hp => ?_
  rcases lt_or_gt_of_ne (he p hp) with h | h
  · have n1 : ¬ e < p.im := not_lt.2 h.le
    simp [h, h.trans h2, n1]
  · have n1 : ¬ p.im < e := not_lt.2 h.le
    simp [h, h1.trans h, n1]

theorem cut_exists (S : Finset ℝ) (hab : a < b) :
    ∃ e ∉ S, a + (b - a) / 3 < e ∧ e < b - (b - a) / 3 := by
  obtain ⟨e, h1, h2⟩ := (Set.Ioo_infinite (show a + (b - a) / 3 < b - (b - a) / 3 by linarith)).exists_notMem_finset S
  exact ⟨e, h2, h1.1, h1.2⟩

variable {Z : Finset ℂ} {k : ℂ → ℤ}

/-- A rectangle for which the claim is false. -/
structure BadRect (f : ℂ → ℂ) (Z : Finset ℂ) (k : ℂ → ℤ) (r : ℝ × ℝ × ℝ × ℝ) : Prop where
  hab : r.1 < r.2.1
  hcd : r.2.2.1 < r.2.2.2
  avoids : Avoids Z r.1 r.2.1 r.2.2.1 r.2.2.2
  wrong : around f r.1 r.2.1 r.2.2.1 r.2.2.2 ≠ 2 * Real.pi * I * inside Z k r.1 r.2.1 r.2.2.1 r.2.2.2

/-- A third off the width and a third off the height, at least. -/
structure Within (r s : ℝ × ℝ × ℝ × ℝ) : Prop where
  a : r.1 ≤ s.1
  b : s.2.1 ≤ r.2.1
  c : r.2.2.1 ≤ s.2.2.1
  d : s.2.2.2 ≤ r.2.2.2
  w : s.2.1 - s.1 ≤ 2 / 3 * (r.2.1 - r.1)
  h : s.2.2.2 - s.2.2.1 ≤ 2 / 3 * (r.2.2.2 - r.2.2.1)

theorem avoids_good (hg : ∀ z ∉ Z, Good f z) (hab : a ≤ b) (hcd : c ≤ d) (hA : Avoids Z a b c d) :
    GoodRect f a b c d := by
  refine goodRect_of (p := fun z => z ∉ Z) hg hab hcd fun z _ _ he hz => ?_
  obtain ⟨h1, h2, h3, h4⟩ := hA z hz
  rcases he with he | he | he | he <;> contradiction

theorem BadRect.step (hg : ∀ z ∉ Z, Good f z) {r : ℝ × ℝ × ℝ × ℝ} (hr : BadRect f Z k r) :
    ∃ s, BadRect f Z k s ∧ Within r s := by
  obtain ⟨a, b, c, d⟩ := r
  obtain ⟨hab, hcd, hA, hw⟩ := hr
  simp only at hab hcd hA hw
  classical
  obtain ⟨e, he, he1, he2⟩ := cut_exists (Z.image Complex.re) hab
  obtain ⟨v, hv, hv1, hv2⟩ := cut_exists (Z.image Complex.im) hcd
  have hex : ∀ p ∈ Z, p.re ≠ e := fun p hp h => he (Finset.mem_image.2 ⟨p, hp, h⟩)
  have hvx : ∀ p ∈ Z, p.im ≠ v := fun p hp h => hv (Finset.mem_image.2 ⟨p, hp, h⟩)
  have ae : a < e := by linarith
  have eb : e < b := by linarith
  have cv : c < v := by linarith
  have vd : v < d := by linarith
  by_contra hn
  push Not at hn
  have hq : ∀ a' b' c' d', a' < b' → c' < d' → Avoids Z a' b' c' d' → Within (a, b, c, d) (a', b', c', d') →
      around f a' b' c' d' = 2 * Real.pi * I * inside Z k a' b' c' d' := by
    intro a' b' c' d' h1 h2 h3 h4
    by_contra h5
    exact hn (a', b', c', d') ⟨h1, h2, h3, h5⟩ h4
  have q1 := hq a e c v ae cv (fun p hp => ⟨(hA p hp).1, hex p hp, (hA p hp).2.2.1, hvx p hp⟩)
    ⟨le_rfl, eb.le, le_rfl, vd.le, by simp only; linarith, by simp only; linarith⟩
  have q2 := hq a e v d ae vd (fun p hp => ⟨(hA p hp).1, hex p hp, hvx p hp, (hA p hp).2.2.2⟩)
    ⟨le_rfl, eb.le, cv.le, le_rfl, by simp only; linarith, by simp only; linarith⟩
  have q3 := hq e b c v eb cv (fun p hp => ⟨hex p hp, (hA p hp).2.1, (hA p hp).2.2.1, hvx p hp⟩)
    ⟨ae.le, le_rfl, le_rfl, vd.le, by simp only; linarith, by simp only; linarith⟩
  have q4 := hq e b v d eb vd (fun p hp => ⟨hex p hp, (hA p hp).2.1, hvx p hp, (hA p hp).2.2.2⟩)
    ⟨ae.le, le_rfl, cv.le, le_rfl, by simp only; linarith, by simp only; linarith⟩
  apply hw
  rw [around_cutX ae.le eb.le (avoids_good hg hab.le hcd.le hA),
    around_cutY cv.le vd.le (avoids_good hg ae.le hcd.le fun p hp =>
      ⟨(hA p hp).1, hex p hp, (hA p hp).2.2.1, (hA p hp).2.2.2⟩),
    around_cutY cv.le vd.le (avoids_good hg eb.le hcd.le fun p hp =>
      ⟨hex p hp, (hA p hp).2.1, (hA p hp).2.2.1, (hA p hp).2.2.2⟩), q1, q2, q3, q4,
    inside_cutX ae eb hex, inside_cutY (a := a) (b := e) cv vd hvx, inside_cutY (a := e) (b := b) cv vd hvx]
  push_cast
  ring

/-- Small rectangles around any point are not bad. -/
theorem small_rect (hg : ∀ z ∉ Z, Good f z) (hk : ∀ p ∈ Z, HasIndex f p (k p)) (p : ℂ) :
    ∃ δ > 0, ∀ r : ℝ × ℝ × ℝ × ℝ, r.1 ≤ p.re → p.re ≤ r.2.1 → r.2.2.1 ≤ p.im → p.im ≤ r.2.2.2 →
      r.2.1 - r.1 < δ → r.2.2.2 - r.2.2.1 < δ → ¬ BadRect f Z k r := by
  classical
  have hfin : ∀ᶠ z in 𝓝 p, z ∉ Z.erase p :=
    (Finset.finite_toSet (Z.erase p)).isClosed.isOpen_compl.mem_nhds (by simp)
  obtain ⟨δ, hδ, hd⟩ := Metric.eventually_nhds_iff.1 hfin
  by_cases hp : p ∈ Z
  · obtain ⟨δ', hδ', hi⟩ := hk p hp
    refine ⟨min (δ / 2) δ', lt_min (half_pos hδ) hδ', ?_⟩
    rintro ⟨a, b, c, d⟩ h1 h2 h3 h4 h5 h6 ⟨-, -, hA, hw⟩
    simp only at h1 h2 h3 h4 h5 h6 hA hw
    rw [lt_min_iff] at h5 h6
    obtain ⟨n1, n2, n3, n4⟩ := hA p hp
    have m1 := lt_of_le_of_ne h1 n1.symm
    have m2 := lt_of_le_of_ne h2 n2
    have m3 := lt_of_le_of_ne h3 n3.symm
    have m4 := lt_of_le_of_ne h4 n4
    refine hw ?_
    rw [hi a b c d m1 m2 m3 m4 h5.2 h6.2, inside, Finset.sum_eq_single p]
    · rw [if_pos ⟨m1, m2, m3, m4⟩]
    · intro q hq hqp
      rw [if_neg]
      rintro ⟨k1, k2, k3, k4⟩
      exact hd (rect_close h1 h2 h3 h4 h5.1 h6.1 ⟨k1.le, k2.le⟩ ⟨k3.le, k4.le⟩) (Finset.mem_erase.2 ⟨hqp, hq⟩)
    · exact fun h => absurd hp h
  · have hgp := hg p hp
    have hc : ∀ᶠ z in 𝓝 p, ‖f z - f p‖ < ‖f p‖ := by
      refine (Metric.continuousAt_iff'.1 hgp.differentiable.continuousAt ‖f p‖ (norm_pos_iff.2 hgp.2)).mono fun z hz => ?_
      rwa [dist_eq_norm] at hz
    obtain ⟨δ', hδ', hi⟩ := Metric.eventually_nhds_iff.1 hc
    refine ⟨min (δ / 2) (δ' / 2), lt_min (half_pos hδ) (half_pos hδ'), ?_⟩
    rintro ⟨a, b, c, d⟩ h1 h2 h3 h4 h5 h6 ⟨hab, hcd, hA, hw⟩
    simp only at h1 h2 h3 h4 h5 h6 hA hw hab hcd
    rw [lt_min_iff] at h5 h6
    refine hw ?_
    have hin : inside Z k a b c d = 0 := by
      refine Finset.sum_eq_zero fun q hq => ?_
      rw [if_neg]
      rintro ⟨k1, k2, k3, k4⟩
      refine hd (rect_close h1 h2 h3 h4 h5.1 h6.1 ⟨k1.le, k2.le⟩ ⟨k3.le, k4.le⟩) (Finset.mem_erase.2 ⟨?_, hq⟩)
      rintro rfl
      exact hp hq
    rw [hin, around_near (h := fun _ => f p) (avoids_good hg hab.le hcd.le hA)
      (goodRect_of (p := fun _ => True) (fun _ _ => ⟨contDiffAt_const, hgp.2⟩) hab.le hcd.le fun _ _ _ _ => trivial)
      fun z hx hy _ => hi (rect_close h1 h2 h3 h4 h5.2 h6.2 hx hy), around_const]
    simp

/-- The winding number around a rectangle is the sum of the indices inside. -/
theorem around_sum (hg : ∀ z ∉ Z, Good f z) (hk : ∀ p ∈ Z, HasIndex f p (k p)) (hab : a < b) (hcd : c < d)
    (hA : Avoids Z a b c d) : around f a b c d = 2 * Real.pi * I * inside Z k a b c d := by
  by_contra hw
  have hstep := fun r : {r // BadRect f Z k r} => r.2.step hg
  choose nxt hbad hwi using hstep
  let s : ℕ → {r // BadRect f Z k r} := fun n => n.rec ⟨(a, b, c, d), ⟨hab, hcd, hA, hw⟩⟩ fun _ r => ⟨nxt r, hbad r⟩
  have hs : ∀ n, Within (s n).1 (s (n + 1)).1 := fun n => hwi (s n)
  have ma : Monotone fun n => (s n).1.1 := monotone_nat_of_le_succ fun n => (hs n).a
  have mb : Antitone fun n => (s n).1.2.1 := antitone_nat_of_succ_le fun n => (hs n).b
  have mc : Monotone fun n => (s n).1.2.2.1 := monotone_nat_of_le_succ fun n => (hs n).c
  have md : Antitone fun n => (s n).1.2.2.2 := antitone_nat_of_succ_le fun n => (hs n).d
  have hx : ∃ x, ∀ n, (s n).1.1 ≤ x ∧ x ≤ (s n).1.2.1 := by
    have hle : ∀ n m, (s n).1.1 ≤ (s m).1.2.1 := fun n m =>
      (ma (le_max_left n m)).trans ((s (max n m)).2.hab.le.trans (mb (le_max_right n m)))
    exact ⟨⨆ n, (s n).1.1, fun n => ⟨le_ciSup (f := fun n => (s n).1.1) ⟨(s 0).1.2.1, by rintro _ ⟨m, rfl⟩; exact hle m 0⟩ n,
      ciSup_le fun m => hle m n⟩⟩
  have hy : ∃ x, ∀ n, (s n).1.2.2.1 ≤ x ∧ x ≤ (s n).1.2.2.2 := by
    have hle : ∀ n m, (s n).1.2.2.1 ≤ (s m).1.2.2.2 := fun n m =>
      (mc (le_max_left n m)).trans ((s (max n m)).2.hcd.le.trans (md (le_max_right n m)))
    exact ⟨⨆ n, (s n).1.2.2.1, fun n => ⟨le_ciSup (f := fun n => (s n).1.2.2.1)
      ⟨(s 0).1.2.2.2, by rintro _ ⟨m, rfl⟩; exact hle m 0⟩ n, ciSup_le fun m => hle m n⟩⟩
  obtain ⟨x, hx⟩ := hx
  obtain ⟨y, hy⟩ := hy
  obtain ⟨δ, hδ, hsm⟩ := small_rect (k := k) hg hk ⟨x, y⟩
  have hwid : ∀ n, (s n).1.2.1 - (s n).1.1 ≤ (2 / 3) ^ n * (b - a) := by
    intro n
    induction n with
    | zero => simp [s]
    | succ n ih =>
      have := (hs n).w
      rw [pow_succ]
      linarith
  have hhei : ∀ n, (s n).1.2.2.2 - (s n).1.2.2.1 ≤ (2 / 3) ^ n * (d - c) := by
    intro n
    induction n with
    | zero => simp [s]
    | succ n ih =>
      have := (hs n).h
      rw [pow_succ]
      linarith
  have hlim : Tendsto (fun n : ℕ => (2 / 3 : ℝ) ^ n) atTop (𝓝 0) :=
    tendsto_pow_atTop_nhds_zero_of_lt_one (by norm_num) (by norm_num)
  have l1 : ∀ᶠ n : ℕ in atTop, (2 / 3 : ℝ) ^ n * (b - a) < δ := by
    have := hlim.mul_const (b - a)
    rw [zero_mul] at this
    exact this.eventually (gt_mem_nhds hδ)
  have l2 : ∀ᶠ n : ℕ in atTop, (2 / 3 : ℝ) ^ n * (d - c) < δ := by
    have := hlim.mul_const (d - c)
    rw [zero_mul] at this
    exact this.eventually (gt_mem_nhds hδ)
  obtain ⟨n, n1, n2⟩ := (l1.and l2).exists
  exact hsm (s n).1 (hx n).1 (hx n).2 (hy n).1 (hy n).2 ((hwid n).trans_lt n1) ((hhei n).trans_lt n2) (s n).2

end Caustics

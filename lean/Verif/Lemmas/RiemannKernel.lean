import Mathlib.MeasureTheory.Integral.Prod
import Mathlib.MeasureTheory.Integral.DominatedConvergence
import Mathlib.MeasureTheory.Group.Integral
import Mathlib.MeasureTheory.Measure.Haar.OfBasis
import Mathlib.MeasureTheory.Measure.Lebesgue.Basic
import Mathlib.MeasureTheory.Function.Floor
import Mathlib.MeasureTheory.Group.Prod
import Mathlib.MeasureTheory.Measure.Haar.Unique
import Mathlib.Analysis.SpecialFunctions.Integrability.Basic

/-! Sums over the pixels of a square, weighted with a kernel that is singular at the origin, tend to the
integral over the square. -/

namespace Caustics

open MeasureTheory Set Filter Topology

/-! ### The integral of a function that is constant on pixels -/

/-- The centre of the pixel (of size `h`, the first one starting at `o`) that contains `u`. -/
noncomputable def cellMid (h o u : ℝ) : ℝ := o + (⌈(u - o) / h⌉ - 1 / 2) * h

theorem cellMid_near {h : ℝ} (hh : 0 < h) (o u : ℝ) : |cellMid h o u - u| ≤ h / 2 := by
  have e : (u - o) / h * h = u - o := div_mul_cancel₀ _ hh.ne'
  have h1 := Int.le_ceil ((u - o) / h)
  have h2 := (Int.ceil_lt_add_one ((u - o) / h)).le
  have a1 := mul_le_mul_of_nonneg_right h1 hh.le
  have a2 := mul_le_mul_of_nonneg_right h2 hh.le
  rw [e] at a1
  rw [add_mul, e] at a2
  unfold cellMid
  rw [abs_le]
  constructor <;> nlinarith

theorem cellMid_of_mem {h : ℝ} (hh : 0 < h) (o : ℝ) (k : ℕ) {u : ℝ} (hu : u ∈ Ioc (o + k * h) (o + (k + 1) * h)) :
    cellMid h o u = o + (k + 1 / 2) * h := by
  have : ⌈(u - o) / h⌉ = (k : ℤ) + 1 := by
    rw [Int.ceil_eq_iff]
    constructor
    · rw [lt_div_iff₀ hh]; push_cast; linarith [hu.1]
    · rw [div_le_iff₀ hh]; push_cast; linarith [hu.2]
  unfold cellMid
  rw [this]
  push_cast
  ring

theorem measurable_cellMid (h o : ℝ) : Measurable (cellMid h o) := by
  unfold cellMid
  have : Measurable fun u : ℝ => ((⌈(u - o) / h⌉ : ℤ) : ℝ) :=
    (measurable_of_countable fun z : ℤ => (z : ℝ)).comp ((Int.measurable_ceil (R := ℝ)).comp ((measurable_id.sub_const o).div_const h))
  exact ((this.sub_const _).mul_const h).const_add o

/-- The pixel centres stay inside. -/
theorem cellMid_mem {h : ℝ} (hh : 0 < h) (o : ℝ) (n : ℕ) {u : ℝ} (hu : u ∈ Ioc o (o + n * h)) :
    cellMid h o u ∈ Icc o (o + n * h) := by
  have p : (0 : ℝ) < (u - o) / h := div_pos (by linarith [hu.1]) hh
  have h1 : (1 : ℤ) ≤ ⌈(u - o) / h⌉ := Int.one_le_ceil_iff.2 p
  have h2 : ⌈(u - o) / h⌉ ≤ (n : ℤ) := Int.ceil_le.2 (by rw [div_le_iff₀ hh]; push_cast; linarith [hu.2])
  have h1' : (1 : ℝ) ≤ ⌈(u - o) / h⌉ := by exact_mod_cast h1
  have h2' : (⌈(u - o) / h⌉ : ℝ) ≤ n := by exact_mod_cast h2
  unfold cellMid
  constructor <;> nlinarith

theorem integral_cells {h : ℝ} (hh : 0 < h) (o : ℝ) (n : ℕ) (G : ℝ → ℝ) :
    ∫ u in Ioc o (o + n * h), G (cellMid h o u) = ∑ b ∈ Finset.range n, h * G (o + (b + 1 / 2) * h) := by
  have hle : ∀ k : ℕ, o + (k : ℝ) * h ≤ o + ((k : ℝ) + 1) * h := fun k => by nlinarith
  have hcongr : ∀ k : ℕ, EqOn (fun u => G (cellMid h o u)) (fun _ => G (o + (k + 1 / 2) * h))
      (Ioc (o + (k : ℝ) * h) (o + ((k : ℝ) + 1) * h)) := fun k u hu => by
    simp only [cellMid_of_mem hh o k hu]
  have hint : ∀ k < n, IntervalIntegrable (fun u => G (cellMid h o u)) volume (o + (k : ℝ) * h) (o + ((k + 1 : ℕ) : ℝ) * h) := by
    intro k _
    push_cast
    rw [intervalIntegrable_iff_integrableOn_Ioc_of_le (hle k)]
    exact (integrableOn_const (by simp)).congr_fun (hcongr k).symm measurableSet_Ioc
  have key := intervalIntegral.sum_integral_adjacent_intervals (a := fun k : ℕ => o + (k : ℝ) * h) hint
  simp only [Nat.cast_zero, zero_mul, add_zero] at key
  rw [← intervalIntegral.integral_of_le (by nlinarith [Nat.cast_nonneg (α := ℝ) n]), ← key]
  refine Finset.sum_congr rfl fun k _ => ?_
  push_cast
  rw [intervalIntegral.integral_of_le (hle k), setIntegral_congr_fun measurableSet_Ioc (hcongr k)]
  simp only [setIntegral_const, smul_eq_mul, measureReal_def, Real.volume_Ioc]
  rw [ENNReal.toReal_ofReal (by nlinarith)]
  ring

/-! ### The singularity is integrable -/

/-- `1/√|w|` between `-B` and `B`. -/
noncomputable def cusp (B w : ℝ) : ℝ := (Icc (-B) B).indicator (fun w => |w| ^ (-(1 / 2) : ℝ)) w

theorem integrable_cusp {B : ℝ} (hB : 0 ≤ B) : Integrable (cusp B) := by
  unfold cusp
  rw [integrable_indicator_iff measurableSet_Icc]
  have h1 : IntervalIntegrable (fun w : ℝ => |w| ^ (-(1 / 2) : ℝ)) volume 0 B := by
    refine (intervalIntegral.intervalIntegrable_rpow' (r := -(1 / 2)) (by norm_num)).congr ?_
    rw [uIoc_of_le hB]
    intro w hw
    simp only [abs_of_pos hw.1]
  have h2 : IntervalIntegrable (fun w : ℝ => |w| ^ (-(1 / 2) : ℝ)) volume (-B) 0 := by
    rw [IntervalIntegrable.iff_comp_neg]
    simpa using h1.symm
  exact (intervalIntegrable_iff_integrableOn_Icc_of_le (by linarith)).1 (h2.trans h1)

theorem cusp_nonneg (B w : ℝ) : 0 ≤ cusp B w :=
  indicator_nonneg (fun _ _ => Real.rpow_nonneg (abs_nonneg _) _) _

/-- A kernel that is continuous away from the origin and no worse than `1/√|a b|` near it. -/
structure MildKernel (φ : ℝ → ℝ → ℝ) : Prop where
  meas : Measurable fun z : ℝ × ℝ => φ z.1 z.2
  cont : ∀ z : ℝ × ℝ, z ≠ 0 → ContinuousAt (fun z : ℝ × ℝ => φ z.1 z.2) z
  bound : ∀ B : ℝ, 0 < B → ∃ C, 0 ≤ C ∧ ∀ a b, a ≠ 0 → b ≠ 0 → |a| ≤ B → |b| ≤ B →
    |φ a b| ≤ C * (|a| ^ (-(1 / 2) : ℝ) * |b| ^ (-(1 / 2) : ℝ))

/-- Almost every point of the plane avoids a vertical and a horizontal line. -/
theorem ae_ne_fst (c : ℝ) : ∀ᵐ w : ℝ × ℝ, w.1 ≠ c :=
  Measure.quasiMeasurePreserving_fst.ae (compl_mem_ae_iff.2 (measure_singleton c))

theorem ae_ne_snd (c : ℝ) : ∀ᵐ w : ℝ × ℝ, w.2 ≠ c :=
  Measure.quasiMeasurePreserving_snd.ae (compl_mem_ae_iff.2 (measure_singleton c))

/-- The square of side `L` around the origin. -/
def square (L : ℝ) : Set (ℝ × ℝ) := Ioc (-(L / 2)) (L / 2) ×ˢ Ioc (-(L / 2)) (L / 2)

theorem measurableSet_square (L : ℝ) : MeasurableSet (square L) := measurableSet_Ioc.prod measurableSet_Ioc

/-- Centre of pixel `b` of a row of pixels of size `h` that starts at `-L/2`. -/
noncomputable def rowPos (L h : ℝ) (b : ℕ) : ℝ := -(L / 2) + (b + 1 / 2) * h

/-- What is summed, as a function on the plane that is constant on pixels. -/
noncomputable def cellFun (L h : ℝ) (f : ℝ × ℝ → ℝ) (φ : ℝ → ℝ → ℝ) (p q : ℝ) (z : ℝ × ℝ) : ℝ :=
  f (cellMid h (-(L / 2)) z.1, cellMid h (-(L / 2)) z.2) *
    φ (p - cellMid h (-(L / 2)) z.1) (q - cellMid h (-(L / 2)) z.2)

/-- A grid line is at least half a pixel away from all pixel centres. -/
theorem lattice_far {h L p : ℝ} (hh : 0 < h) (hp : ∃ m : ℤ, p = -(L / 2) + m * h) (u : ℝ) :
    h / 2 ≤ |p - cellMid h (-(L / 2)) u| := by
  obtain ⟨m, rfl⟩ := hp
  unfold cellMid
  generalize ⌈(u - -(L / 2)) / h⌉ = c
  have e : -(L / 2) + (m : ℝ) * h - (-(L / 2) + ((c : ℝ) - 1 / 2) * h) = ((m - c : ℤ) + 1 / 2 : ℝ) * h := by
    push_cast; ring
  rw [e, abs_mul, abs_of_pos hh]
  have : (1 / 2 : ℝ) ≤ |((m - c : ℤ) : ℝ) + 1 / 2| := by
    rcases le_or_gt 0 (m - c) with hc | hc
    · have : (0 : ℝ) ≤ ((m - c : ℤ) : ℝ) := by exact_mod_cast hc
      rw [abs_of_nonneg (by linarith)]; linarith
    · have : ((m - c : ℤ) : ℝ) ≤ -1 := by exact_mod_cast (by omega : m - c ≤ -1)
      rw [abs_of_neg (by linarith)]; linarith
  nlinarith

/-- Distances from a grid line to the pixel centre and to the point itself. -/
theorem lattice_half {h L p : ℝ} (hh : 0 < h) (hp : ∃ m : ℤ, p = -(L / 2) + m * h) (w : ℝ) :
    |w| / 2 ≤ |p - cellMid h (-(L / 2)) (p - w)| ∧ |p - cellMid h (-(L / 2)) (p - w) - w| ≤ h / 2 := by
  have h1 := lattice_far hh hp (p - w)
  have h2 := cellMid_near hh (-(L / 2)) (p - w)
  have e : p - cellMid h (-(L / 2)) (p - w) - w = -(cellMid h (-(L / 2)) (p - w) - (p - w)) := by ring
  have h3 : |p - cellMid h (-(L / 2)) (p - w) - w| ≤ h / 2 := by rw [e, abs_neg]; exact h2
  refine ⟨?_, h3⟩
  have h4 := abs_sub_abs_le_abs_sub w (p - cellMid h (-(L / 2)) (p - w))
  rw [abs_sub_comm w] at h4
  linarith

theorem half_rpow {d w : ℝ} (hw : w ≠ 0) (h : |w| / 2 ≤ |d|) :
    |d| ^ (-(1 / 2) : ℝ) ≤ 2 * |w| ^ (-(1 / 2) : ℝ) := by
  have hw' : 0 < |w| := abs_pos.2 hw
  have h1 : |d| ^ (-(1 / 2) : ℝ) ≤ (|w| / 2) ^ (-(1 / 2) : ℝ) :=
    Real.rpow_le_rpow_of_nonpos (by positivity) h (by norm_num)
  have h2 : (|w| / 2) ^ (-(1 / 2) : ℝ) = (2 : ℝ) ^ (1 / 2 : ℝ) * |w| ^ (-(1 / 2) : ℝ) := by
    rw [div_eq_mul_inv, Real.mul_rpow hw'.le (by norm_num), Real.inv_rpow (by norm_num),
      ← Real.rpow_neg (by norm_num), neg_neg, mul_comm]
  have h3 : (2 : ℝ) ^ (1 / 2 : ℝ) ≤ 2 := by
    calc (2 : ℝ) ^ (1 / 2 : ℝ) ≤ (2 : ℝ) ^ (1 : ℝ) := Real.rpow_le_rpow_of_exponent_le (by norm_num) (by norm_num)
      _ = 2 := Real.rpow_one 2
  rw [h2] at h1
  exact h1.trans (mul_le_mul_of_nonneg_right h3 (Real.rpow_nonneg hw'.le _))

instance plane_haar : (volume : Measure (ℝ × ℝ)).IsAddHaarMeasure :=
  inferInstanceAs ((volume : Measure ℝ).prod (volume : Measure ℝ)).IsAddHaarMeasure

section Limit
variable {L : ℝ} {f : ℝ × ℝ → ℝ} {φ : ℝ → ℝ → ℝ}

/-- The function on the plane, seen from `(p, q)`. -/
noncomputable def seenFrom (L h : ℝ) (f : ℝ × ℝ → ℝ) (φ : ℝ → ℝ → ℝ) (p q : ℝ) (w : ℝ × ℝ) : ℝ :=
  (square L).indicator (cellFun L h f φ p q) ((p, q) - w)

theorem measurable_cellFun (hf : Continuous f) (hφ : MildKernel φ) (L h p q : ℝ) : Measurable (cellFun L h f φ p q) := by
  have m1 : Measurable fun z : ℝ × ℝ => cellMid h (-(L / 2)) z.1 := (measurable_cellMid _ _).comp measurable_fst
  have m2 : Measurable fun z : ℝ × ℝ => cellMid h (-(L / 2)) z.2 := (measurable_cellMid _ _).comp measurable_snd
  exact (hf.measurable.comp (m1.prodMk m2)).mul
    (hφ.meas.comp ((m1.const_sub p).prodMk (m2.const_sub q)))

theorem measurable_seenFrom (hf : Continuous f) (hφ : MildKernel φ) (L h p q : ℝ) : Measurable (seenFrom L h f φ p q) :=
  ((measurable_cellFun hf hφ L h p q).indicator (measurableSet_square L)).comp (measurable_const.sub measurable_id)

theorem seenFrom_bound {M C B h p q : ℝ} (hM : ∀ z ∈ Icc (-(L / 2)) (L / 2) ×ˢ Icc (-(L / 2)) (L / 2), |f z| ≤ M) (hC : 0 ≤ C)
    (hφ : ∀ a b, a ≠ 0 → b ≠ 0 → |a| ≤ 2 * B → |b| ≤ 2 * B →
      |φ a b| ≤ C * (|a| ^ (-(1 / 2) : ℝ) * |b| ^ (-(1 / 2) : ℝ)))
    (hh : 0 < h) {n : ℕ} (hn : n * h = L) (lp : ∃ m : ℤ, p = -(L / 2) + m * h) (lq : ∃ m : ℤ, q = -(L / 2) + m * h)
    (hp : |p| + L / 2 ≤ B) (hq : |q| + L / 2 ≤ B) (hB : h / 2 ≤ B) {w : ℝ × ℝ} (h1 : w.1 ≠ 0) (h2 : w.2 ≠ 0) :
    ‖seenFrom L h f φ p q w‖ ≤ 4 * M * C * (cusp B w.1 * cusp B w.2) := by
  have hL0 : 0 ≤ L := by rw [← hn]; positivity
  have hM0 : 0 ≤ M := (abs_nonneg _).trans (hM (0, 0) ⟨⟨by linarith, by linarith⟩, ⟨by linarith, by linarith⟩⟩)
  unfold seenFrom
  by_cases hz : (p, q) - w ∈ square L
  · rw [indicator_of_mem hz]
    obtain ⟨z1, z2⟩ := hz
    simp only [Prod.fst_sub, Prod.snd_sub] at z1 z2
    have en : -(L / 2) + (n : ℝ) * h = L / 2 := by rw [hn]; ring
    have c1 := cellMid_mem hh (-(L / 2)) n (u := p - w.1) (by rw [en]; exact z1)
    have c2 := cellMid_mem hh (-(L / 2)) n (u := q - w.2) (by rw [en]; exact z2)
    rw [en] at c1 c2
    obtain ⟨d1, e1⟩ := lattice_half hh lp w.1
    obtain ⟨d2, e2⟩ := lattice_half hh lq w.2
    have far1 := lattice_far hh lp (p - w.1)
    have far2 := lattice_far hh lq (q - w.2)
    have w1 : |w.1| ≤ B := by
      have : |w.1| ≤ |p| + L / 2 := by
        obtain ⟨a, b⟩ := abs_le.1 (le_refl |p|)
        rw [abs_le]; constructor <;> linarith [z1.1, z1.2]
      linarith
    have w2 : |w.2| ≤ B := by
      have : |w.2| ≤ |q| + L / 2 := by
        obtain ⟨a, b⟩ := abs_le.1 (le_refl |q|)
        rw [abs_le]; constructor <;> linarith [z2.1, z2.2]
      linarith
    have cu1 : cusp B w.1 = |w.1| ^ (-(1 / 2) : ℝ) := indicator_of_mem (s := Icc (-B) B) (a := w.1) (abs_le.1 w1) _
    have cu2 : cusp B w.2 = |w.2| ^ (-(1 / 2) : ℝ) := indicator_of_mem (s := Icc (-B) B) (a := w.2) (abs_le.1 w2) _
    simp only [cellFun, Prod.fst_sub, Prod.snd_sub, norm_mul, Real.norm_eq_abs]
    have hm := hM (cellMid h (-(L / 2)) (p - w.1), cellMid h (-(L / 2)) (q - w.2)) ⟨c1, c2⟩
    generalize cellMid h (-(L / 2)) (p - w.1) = u at *
    generalize cellMid h (-(L / 2)) (q - w.2) = v at *
    have hk := hφ (p - u) (q - v) (abs_pos.1 (lt_of_lt_of_le (by positivity) far1))
      (abs_pos.1 (lt_of_lt_of_le (by positivity) far2))
      (by have := abs_sub_abs_le_abs_sub (p - u) w.1; linarith)
      (by have := abs_sub_abs_le_abs_sub (q - v) w.2; linarith)
    have r1 := half_rpow h1 d1
    have r2 := half_rpow h2 d2
    have r12 : |p - u| ^ (-(1 / 2) : ℝ) * |q - v| ^ (-(1 / 2) : ℝ)
        ≤ (2 * |w.1| ^ (-(1 / 2) : ℝ)) * (2 * |w.2| ^ (-(1 / 2) : ℝ)) :=
      mul_le_mul r1 r2 (by positivity) (by positivity)
    rw [cu1, cu2]
    calc |f (u, v)| * |φ (p - u) (q - v)|
        ≤ M * (C * ((2 * |w.1| ^ (-(1 / 2) : ℝ)) * (2 * |w.2| ^ (-(1 / 2) : ℝ)))) :=
          mul_le_mul hm (hk.trans (mul_le_mul_of_nonneg_left r12 hC)) (abs_nonneg _) hM0
      _ = 4 * M * C * (|w.1| ^ (-(1 / 2) : ℝ) * |w.2| ^ (-(1 / 2) : ℝ)) := by ring
  · rw [indicator_of_notMem hz, norm_zero]
    have := cusp_nonneg B w.1
    have := cusp_nonneg B w.2
    positivity

/-- The integral of the function on the plane is the sum over the pixels. -/
theorem integral_seenFrom {h p q : ℝ} (hh : 0 < h) {n : ℕ} (hn : n * h = L) (hi : Integrable (seenFrom L h f φ p q)) :
    ∫ w, seenFrom L h f φ p q w = h ^ 2 * ∑ a ∈ Finset.range n, ∑ b ∈ Finset.range n,
      f (rowPos L h b, rowPos L h a) * φ (p - rowPos L h b) (q - rowPos L h a) := by
  have e : ∀ z, seenFrom L h f φ p q ((p, q) - z) = (square L).indicator (cellFun L h f φ p q) z := by
    intro z; unfold seenFrom; rw [sub_sub_cancel]
  have hi2 : Integrable ((square L).indicator (cellFun L h f φ p q)) := by
    have := hi.comp_sub_left (p, q)
    simpa only [e] using this
  rw [← integral_sub_left_eq_self _ _ (p, q)]
  simp only [e]
  rw [integral_indicator (measurableSet_square L)]
  rw [integrable_indicator_iff (measurableSet_square L)] at hi2
  have en : L / 2 = -(L / 2) + (n : ℝ) * h := by rw [hn]; ring
  unfold square at hi2 ⊢
  rw [Measure.volume_eq_prod] at hi2 ⊢
  rw [setIntegral_prod _ hi2]
  have inner : ∀ u : ℝ, ∫ v in Ioc (-(L / 2)) (L / 2), cellFun L h f φ p q (u, v)
      = (fun s => ∑ a ∈ Finset.range n, h * (f (s, rowPos L h a) * φ (p - s) (q - rowPos L h a)))
          (cellMid h (-(L / 2)) u) := by
    intro u
    have := integral_cells hh (-(L / 2)) n
      (fun t => f (cellMid h (-(L / 2)) u, t) * φ (p - cellMid h (-(L / 2)) u) (q - t))
    rw [← en] at this
    exact this
  simp only [inner]
  have := integral_cells hh (-(L / 2)) n
    (fun s => ∑ a ∈ Finset.range n, h * (f (s, rowPos L h a) * φ (p - s) (q - rowPos L h a)))
  rw [← en] at this
  rw [this, Finset.mul_sum]
  simp only [Finset.mul_sum]
  rw [Finset.sum_comm]
  refine Finset.sum_congr rfl fun a _ => Finset.sum_congr rfl fun b _ => ?_
  unfold rowPos
  ring

/-- The sums over the pixels tend to the integral. -/
theorem tendsto_kernel_sum {ι : Type*} {F : Filter ι} [F.IsCountablyGenerated] {h : ι → ℝ} {n : ι → ℕ}
    (hL : 0 < L) (hh : ∀ᶠ k in F, 0 < h k) (hn : ∀ᶠ k in F, n k * h k = L) (h0 : Tendsto h F (𝓝 0)) {p q : ι → ℝ} {x y : ℝ}
    (hp : Tendsto p F (𝓝 x)) (hq : Tendsto q F (𝓝 y)) (lp : ∀ᶠ k in F, ∃ m : ℤ, p k = -(L / 2) + m * h k)
    (lq : ∀ᶠ k in F, ∃ m : ℤ, q k = -(L / 2) + m * h k) (hf : Continuous f) (hφ : MildKernel φ) :
    Tendsto (fun k => h k ^ 2 * ∑ a ∈ Finset.range (n k), ∑ b ∈ Finset.range (n k),
      f (rowPos L (h k) b, rowPos L (h k) a) * φ (p k - rowPos L (h k) b) (q k - rowPos L (h k) a)) F
      (𝓝 (∫ z in square L, f z * φ (x - z.1) (y - z.2))) := by
  have hab : ∀ {g : ι → ℝ} {c : ℝ}, Tendsto g F (𝓝 c) → ∀ᶠ k in F, |g k| ≤ |c| + 1 := by
    intro g c hg
    have := (hg.abs).eventually (gt_mem_nhds (lt_add_one |c|))
    exact this.mono fun k hk => le_of_lt hk
  set B : ℝ := |x| + |y| + 1 + L with hBdef
  have hx0 := abs_nonneg x
  have hy0 := abs_nonneg y
  have hB : 0 < B := by positivity
  obtain ⟨M, hM⟩ := (isCompact_Icc.prod isCompact_Icc :
    IsCompact (Icc (-(L / 2)) (L / 2) ×ˢ Icc (-(L / 2)) (L / 2))).exists_bound_of_continuousOn hf.continuousOn
  obtain ⟨C, hC, hCb⟩ := hφ.bound (2 * B) (by positivity)
  have hsmall : ∀ᶠ k in F, h k / 2 ≤ B :=
    (h0.eventually (gt_mem_nhds hB)).mono fun k hk => by linarith [hk]
  have hbd : ∀ᶠ k in F, ∀ᵐ w : ℝ × ℝ, ‖seenFrom L (h k) f φ (p k) (q k) w‖ ≤ 4 * M * C * (cusp B w.1 * cusp B w.2) := by
    filter_upwards [hh, hn, lp, lq, hab hp, hab hq, hsmall] with k k1 k2 k3 k4 k5 k6 k7
    filter_upwards [ae_ne_fst 0, ae_ne_snd 0] with w w1 w2
    exact seenFrom_bound hM hC hCb k1 k2 k3 k4 (by linarith) (by linarith) k7 w1 w2
  have hbi : Integrable fun w : ℝ × ℝ => 4 * M * C * (cusp B w.1 * cusp B w.2) :=
    ((integrable_cusp hB.le).mul_prod (integrable_cusp hB.le)).const_mul _
  have hmeas : ∀ k, AEStronglyMeasurable (seenFrom L (h k) f φ (p k) (q k)) volume :=
    fun k => (measurable_seenFrom hf hφ _ _ _ _).aestronglyMeasurable
  set G : ℝ × ℝ → ℝ := fun w => (square L).indicator (fun z => f z * φ (x - z.1) (y - z.2)) ((x, y) - w) with hG
  have hpt : ∀ᵐ w : ℝ × ℝ, Tendsto (fun k => seenFrom L (h k) f φ (p k) (q k) w) F (𝓝 (G w)) := by
    filter_upwards [ae_ne_fst 0, ae_ne_fst (x - L / 2), ae_ne_fst (x + L / 2), ae_ne_snd (y - L / 2),
      ae_ne_snd (y + L / 2)] with w w0 w1 w2 w3 w4
    have tz : Tendsto (fun k => (p k, q k) - w) F (𝓝 ((x, y) - w)) := (hp.prodMk_nhds hq).sub tendsto_const_nhds
    by_cases hz : (x, y) - w ∈ Ioo (-(L / 2)) (L / 2) ×ˢ Ioo (-(L / 2)) (L / 2)
    · have hsub : Ioo (-(L / 2)) (L / 2) ×ˢ Ioo (-(L / 2)) (L / 2) ⊆ square L := prod_mono Ioo_subset_Ioc_self Ioo_subset_Ioc_self
      have hev : ∀ᶠ k in F, (p k, q k) - w ∈ square L :=
        (tz.eventually ((isOpen_Ioo.prod isOpen_Ioo).mem_nhds hz)).mono fun k hk => hsub hk
      have eG : G w = f ((x, y) - w) * φ w.1 w.2 := by
        simp only [hG]
        rw [indicator_of_mem (hsub hz)]
        simp only [Prod.fst_sub, Prod.snd_sub, sub_sub_cancel]
      rw [eG]
      have near : ∀ {r : ι → ℝ} {t : ℝ} (v : ℝ), Tendsto r F (𝓝 t) →
          Tendsto (fun k => cellMid (h k) (-(L / 2)) (r k - v)) F (𝓝 (t - v)) := by
        intro r t v hr
        have : Tendsto (fun k => cellMid (h k) (-(L / 2)) (r k - v) - (r k - v)) F (𝓝 0) := by
          refine squeeze_zero_norm' (hh.mono fun k hk => ?_) (by simpa using h0.div_const 2 : Tendsto (fun k => h k / 2) F (𝓝 0))
          rw [Real.norm_eq_abs]
          exact cellMid_near hk _ _
        simpa using this.add (hr.sub_const v)
      have c1 := near w.1 hp
      have c2 := near w.2 hq
      have t1 : Tendsto (fun k => f (cellMid (h k) (-(L / 2)) (p k - w.1), cellMid (h k) (-(L / 2)) (q k - w.2))) F
          (𝓝 (f ((x, y) - w))) := (hf.tendsto _).comp (c1.prodMk_nhds c2)
      have t2 : Tendsto (fun k => φ (p k - cellMid (h k) (-(L / 2)) (p k - w.1)) (q k - cellMid (h k) (-(L / 2)) (q k - w.2))) F
          (𝓝 (φ w.1 w.2)) := by
        have a1 : Tendsto (fun k => p k - cellMid (h k) (-(L / 2)) (p k - w.1)) F (𝓝 w.1) := by
          simpa using hp.sub c1
        have a2 : Tendsto (fun k => q k - cellMid (h k) (-(L / 2)) (q k - w.2)) F (𝓝 w.2) := by
          simpa using hq.sub c2
        exact ((hφ.cont w (fun hc => w0 (by rw [hc]; rfl))).tendsto).comp (a1.prodMk_nhds a2)
      refine (t1.mul t2).congr' (hev.mono fun k hk => ?_)
      simp only [seenFrom]
      rw [indicator_of_mem hk]
      rfl
    · have hz' : (x, y) - w ∈ (Icc (-(L / 2)) (L / 2) ×ˢ Icc (-(L / 2)) (L / 2))ᶜ := by
        intro hc
        apply hz
        obtain ⟨⟨a, b⟩, c, d⟩ := hc
        simp only [Prod.fst_sub, Prod.snd_sub] at a b c d
        refine ⟨⟨lt_of_le_of_ne a ?_, lt_of_le_of_ne b ?_⟩, lt_of_le_of_ne c ?_, lt_of_le_of_ne d ?_⟩ <;>
          intro hc <;> simp only [Prod.fst_sub, Prod.snd_sub] at hc
        · exact w2 (by linarith)
        · exact w1 (by linarith)
        · exact w4 (by linarith)
        · exact w3 (by linarith)
      have hsup : (Icc (-(L / 2)) (L / 2) ×ˢ Icc (-(L / 2)) (L / 2))ᶜ ⊆ (square L)ᶜ :=
        compl_subset_compl.2 (prod_mono Ioc_subset_Icc_self Ioc_subset_Icc_self)
      have hev : ∀ᶠ k in F, (p k, q k) - w ∉ square L :=
        (tz.eventually ((isClosed_Icc.prod isClosed_Icc).isOpen_compl.mem_nhds hz')).mono fun k hk => hsup hk
      have eG : G w = 0 := by
        simp only [hG]
        rw [indicator_of_notMem (hsup hz')]
      rw [eG]
      refine tendsto_const_nhds.congr' (hev.mono fun k hk => ?_)
      simp only [seenFrom]
      rw [indicator_of_notMem hk]
  have lim := tendsto_integral_filter_of_dominated_convergence _ (Eventually.of_forall hmeas) hbd hbi hpt
  have eG : ∫ w, G w = ∫ z in square L, f z * φ (x - z.1) (y - z.2) := by
    rw [← integral_indicator (measurableSet_square L), ← integral_sub_left_eq_self _ _ (x, y)]
    simp only [hG, sub_sub_cancel]
  rw [eG] at lim
  refine lim.congr' ?_
  filter_upwards [hh, hn, hbd] with k k1 k2 k3
  exact integral_seenFrom k1 k2 (hbi.mono' (hmeas k) k3)

end Limit

/-! ### The kernels of the deflection and of the potential -/

theorem plane_sq_pos {z : ℝ × ℝ} (hz : z ≠ 0) : 0 < z.1 ^ 2 + z.2 ^ 2 := by
  rcases eq_or_ne z.1 0 with h1 | h1
  · have h2 : z.2 ≠ 0 := fun h2 => hz (Prod.ext h1 h2)
    positivity
  · positivity

/-- `1/r` is at most `1/√|a b|`. -/
theorem inv_dist_le {a b : ℝ} (ha : a ≠ 0) (hb : b ≠ 0) :
    1 / Real.sqrt (a ^ 2 + b ^ 2) ≤ |a| ^ (-(1 / 2) : ℝ) * |b| ^ (-(1 / 2) : ℝ) := by
  have ha' := abs_pos.2 ha
  have hb' := abs_pos.2 hb
  rw [← Real.mul_rpow ha'.le hb'.le, Real.rpow_neg (by positivity), ← Real.sqrt_eq_rpow, one_div]
  apply inv_anti₀ (Real.sqrt_pos.2 (by positivity))
  apply Real.sqrt_le_sqrt
  rw [← sq_abs a, ← sq_abs b]
  nlinarith [sq_nonneg (|a| - |b|), mul_pos ha' hb']

theorem abs_le_dist (a b : ℝ) : |a| ≤ Real.sqrt (a ^ 2 + b ^ 2) :=
  Real.abs_le_sqrt (by nlinarith [sq_nonneg b])

theorem mild_x : MildKernel fun x y => x / (x ^ 2 + y ^ 2) where
  meas := by fun_prop
  cont z hz := by
    have := (plane_sq_pos hz).ne'
    fun_prop (disch := assumption)
  bound B _ := by
    refine ⟨1, zero_le_one, fun a b ha hb _ _ => ?_⟩
    have hp : 0 < a ^ 2 + b ^ 2 := by positivity
    have hs := Real.sqrt_pos.2 hp
    have e : a ^ 2 + b ^ 2 = Real.sqrt (a ^ 2 + b ^ 2) * Real.sqrt (a ^ 2 + b ^ 2) := (Real.mul_self_sqrt hp.le).symm
    refine le_trans ?_ (mul_le_mul_of_nonneg_left (inv_dist_le ha hb) zero_le_one)
    rw [one_mul, abs_div, abs_of_pos hp, div_le_div_iff₀ hp hs, one_mul]
    conv_rhs => rw [e]
    exact mul_le_mul_of_nonneg_right (abs_le_dist a b) hs.le

theorem mild_y : MildKernel fun x y => y / (x ^ 2 + y ^ 2) where
  meas := by fun_prop
  cont z hz := by
    have := (plane_sq_pos hz).ne'
    fun_prop (disch := assumption)
  bound B hB := by
    obtain ⟨C, hC, h⟩ := mild_x.bound B hB
    refine ⟨C, hC, fun a b ha hb ha' hb' => ?_⟩
    have := h b a hb ha hb' ha'
    rwa [add_comm (b ^ 2), mul_comm (|b| ^ _)] at this

theorem mild_log : MildKernel fun x y => Real.log (Real.sqrt (x ^ 2 + y ^ 2)) where
  meas := by fun_prop
  cont z hz := by
    have : Real.sqrt (z.1 ^ 2 + z.2 ^ 2) ≠ 0 := (Real.sqrt_pos.2 (plane_sq_pos hz)).ne'
    fun_prop (disch := assumption)
  bound B hB := by
    refine ⟨1 + 2 * B ^ 2, by positivity, fun a b ha hb ha' hb' => ?_⟩
    have hp : 0 < a ^ 2 + b ^ 2 := by positivity
    have hs := Real.sqrt_pos.2 hp
    have hsq : Real.sqrt (a ^ 2 + b ^ 2) ^ 2 ≤ 2 * B ^ 2 := by
      rw [Real.sq_sqrt hp.le, ← sq_abs a, ← sq_abs b]
      nlinarith [abs_nonneg a, abs_nonneg b]
    refine le_trans ?_ (mul_le_mul_of_nonneg_left (inv_dist_le ha hb) (by positivity))
    generalize Real.sqrt (a ^ 2 + b ^ 2) = r at *
    rw [mul_one_div, le_div_iff₀ hs]
    have l1 : Real.log r ≤ r := (Real.log_le_sub_one_of_pos hs).trans (by linarith)
    have l2 : -Real.log r ≤ 1 / r := by
      rw [← Real.log_inv, ← one_div]
      exact (Real.log_le_sub_one_of_pos (by positivity)).trans (by linarith)
    have l3 : 1 / r * r = 1 := by field_simp
    have l4 : 0 < 1 / r := by positivity
    have : |Real.log r| ≤ r + 1 / r := abs_le.2 ⟨by linarith, by linarith⟩
    calc |Real.log r| * r ≤ (r + 1 / r) * r := mul_le_mul_of_nonneg_right this hs.le
      _ ≤ 1 + 2 * B ^ 2 := by rw [add_mul, l3]; nlinarith

end Caustics

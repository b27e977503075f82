import Mathlib.MeasureTheory.Integral.IntervalIntegral.Basic
import Mathlib.MeasureTheory.Integral.Prod
import Mathlib.MeasureTheory.Integral.DominatedConvergence
import Mathlib.MeasureTheory.Measure.Lebesgue.Basic
import Mathlib.MeasureTheory.Function.Floor
import Mathlib.Tactic.Positivity
import Mathlib.Tactic.FieldSimp
import Mathlib.Tactic.Linarith
import Mathlib.Tactic.NormNum
import Mathlib.Tactic.Ring

/-! Means over equally spaced points, end points included, as integrals of step functions. -/

namespace Caustics

open MeasureTheory Set Filter Topology

/-- The integral of a function that is constant on the `n` equal parts of `[a, b]`. -/
theorem integral_steps (h : ℕ → ℝ) {a b : ℝ} (hab : a < b) {n : ℕ} (hn : 0 < n) :
    ∫ x in a..b, h ⌊(n : ℝ) * ((x - a) / (b - a))⌋₊ = (b - a) / n * ∑ i ∈ Finset.range n, h i := by
  have hn' : (0 : ℝ) < n := by exact_mod_cast hn
  have hba : 0 < b - a := by linarith
  set w : ℝ := (b - a) / n with hw
  have hwpos : 0 < w := by positivity
  set c : ℕ → ℝ := fun k => a + k * w with hc
  have hc0 : c 0 = a := by simp [hc]
  have hcn : c n = b := by
    simp only [hc, hw]; field_simp; ring
  have hfl : ∀ k : ℕ, ∀ x ∈ Ico (c k) (c (k + 1)), ⌊(n : ℝ) * ((x - a) / (b - a))⌋₊ = k := by
    intro k x hx
    simp only [hc, mem_Ico, Nat.cast_add, Nat.cast_one] at hx
    have e : (n : ℝ) * ((x - a) / (b - a)) = (x - a) / w := by
      simp only [hw]; field_simp
    rw [e, Nat.floor_eq_iff (div_nonneg (by nlinarith [hx.1, (Nat.cast_nonneg k : (0 : ℝ) ≤ k)]) hwpos.le),
      le_div_iff₀ hwpos, div_lt_iff₀ hwpos]
    constructor <;> linarith [hx.1, hx.2]
  have hle : ∀ k, c k ≤ c (k + 1) := by
    intro k; simp only [hc, Nat.cast_add, Nat.cast_one]; linarith
  have hae : ∀ k : ℕ, ∀ᵐ x : ℝ, x ∈ Ioc (c k) (c (k + 1)) → h ⌊(n : ℝ) * ((x - a) / (b - a))⌋₊ = h k := by
    intro k
    have : ∀ᵐ x : ℝ, x ≠ c (k + 1) := by
      rw [ae_iff]; simp
    filter_upwards [this] with x hx hx'
    rw [hfl k x ⟨hx'.1.le, lt_of_le_of_ne hx'.2 hx⟩]
  have hpiece : ∀ k : ℕ, ∫ x in c k..c (k + 1), h ⌊(n : ℝ) * ((x - a) / (b - a))⌋₊ = w * h k := by
    intro k
    rw [intervalIntegral.integral_congr_ae (g := fun _ => h k)]
    · rw [intervalIntegral.integral_const, smul_eq_mul]
      congr 1
      simp only [hc, Nat.cast_add, Nat.cast_one]; ring
    · rw [uIoc_of_le (hle k)]
      exact hae k
  have hint : ∀ k < n, IntervalIntegrable (fun x => h ⌊(n : ℝ) * ((x - a) / (b - a))⌋₊) volume (c k) (c (k + 1)) := by
    intro k _
    refine (intervalIntegrable_const (c := h k)).congr_ae ?_
    rw [uIoc_of_le (hle k), EventuallyEq, ae_restrict_iff' measurableSet_Ioc]
    filter_upwards [hae k] with x hx hx'
    exact (hx hx').symm
  have := intervalIntegral.sum_integral_adjacent_intervals hint
  rw [hc0, hcn] at this
  rw [← this, Finset.mul_sum]
  exact Finset.sum_congr rfl fun k _ => hpiece k

/-- The grid point standing for `x`: `[a, b]` is cut in `n` equal parts and the `i`-th part is represented
by the `i`-th of `n` equally spaced points from `a` to `b`. -/
noncomputable def gridTag (a b : ℝ) (n : ℕ) (x : ℝ) : ℝ :=
  a + (⌊(n : ℝ) * ((x - a) / (b - a))⌋₊ : ℝ) * ((b - a) / ((n : ℝ) - 1))

/-- The grid point lies in the part it stands for. -/
theorem gridTag_near {a b : ℝ} (hab : a < b) {n : ℕ} (hn : 2 ≤ n) {x : ℝ} (hx : x ∈ Ico a b) :
    gridTag a b n x ∈ Icc a b ∧ |gridTag a b n x - x| ≤ (b - a) / n := by
  have hn' : (2 : ℝ) ≤ n := by exact_mod_cast hn
  have hba : 0 < b - a := by linarith
  set t : ℝ := (x - a) / (b - a) with ht
  have ht0 : 0 ≤ t := div_nonneg (by linarith [hx.1]) hba.le
  have ht1 : t < 1 := by rw [ht, div_lt_one hba]; linarith [hx.2]
  have hxt : x = a + t * (b - a) := by rw [ht]; field_simp; ring
  set k := ⌊(n : ℝ) * t⌋₊ with hk
  have hk1 : (k : ℝ) ≤ n * t := Nat.floor_le (by positivity)
  have hk2 : n * t < k + 1 := Nat.lt_floor_add_one _
  have hkn : k + 1 ≤ n := by
    have : k < n := by
      rw [hk, Nat.floor_lt (by positivity)]
      nlinarith
    omega
  have hkn' : (k : ℝ) + 1 ≤ n := by exact_mod_cast hkn
  have hk0 : (0 : ℝ) ≤ k := Nat.cast_nonneg k
  have hn1 : (0 : ℝ) < n - 1 := by linarith
  have htag : gridTag a b n x = a + (k / ((n : ℝ) - 1)) * (b - a) := by
    simp only [gridTag, ← ht, ← hk]; ring
  have hr1 : (k : ℝ) / ((n : ℝ) - 1) ≤ 1 := by rw [div_le_one hn1]; linarith
  have hr0 : 0 ≤ (k : ℝ) / ((n : ℝ) - 1) := div_nonneg hk0 hn1.le
  have hl : (k : ℝ) / n ≤ k / ((n : ℝ) - 1) := by
    gcongr; linarith
  have hu : (k : ℝ) / ((n : ℝ) - 1) ≤ (k + 1) / n := by
    rw [div_le_div_iff₀ hn1 (by linarith)]; nlinarith
  have hl' : (k : ℝ) / n ≤ t := by rw [div_le_iff₀ (by linarith)]; linarith
  have hu' : t ≤ (k + 1) / n := by rw [le_div_iff₀ (by linarith)]; linarith
  have hd : ((k : ℝ) + 1) / n = k / n + 1 / n := by ring
  refine ⟨⟨by rw [htag]; nlinarith, by rw [htag]; nlinarith⟩, ?_⟩
  rw [htag, hxt]
  have : |(k : ℝ) / ((n : ℝ) - 1) - t| ≤ 1 / n := by
    rw [abs_le]; constructor <;> linarith
  calc |a + k / ((n : ℝ) - 1) * (b - a) - (a + t * (b - a))| = |(k : ℝ) / ((n : ℝ) - 1) - t| * (b - a) := by
        rw [← abs_of_pos hba, ← abs_mul, abs_of_pos hba]; congr 1; ring
    _ ≤ 1 / n * (b - a) := by gcongr
    _ = (b - a) / n := by ring

theorem measurable_gridTag (a b : ℝ) (n : ℕ) : Measurable fun x : ℝ => ⌊(n : ℝ) * ((x - a) / (b - a))⌋₊ :=
  Nat.measurable_floor.comp (by fun_prop)

/-- The step function made of the values of `g` on the grid. -/
noncomputable def gridStep (g : ℝ × ℝ → ℝ) (a b c d : ℝ) (n : ℕ) (p : ℝ × ℝ) : ℝ :=
  g (gridTag a b n p.1, gridTag c d n p.2)

theorem measurable_gridStep (g : ℝ × ℝ → ℝ) (a b c d : ℝ) (n : ℕ) : Measurable (gridStep g a b c d n) := by
  have h1 : Measurable fun p : ℝ × ℝ => ((⌊(n : ℝ) * ((p.1 - a) / (b - a))⌋₊, ⌊(n : ℝ) * ((p.2 - c) / (d - c))⌋₊) : ℕ × ℕ) :=
    ((measurable_gridTag a b n).comp measurable_fst).prodMk ((measurable_gridTag c d n).comp measurable_snd)
  have h2 : Measurable fun k : ℕ × ℕ => g (a + (k.1 : ℝ) * ((b - a) / ((n : ℝ) - 1)),
      c + (k.2 : ℝ) * ((d - c) / ((n : ℝ) - 1))) := measurable_of_countable _
  exact h2.comp h1

theorem ae_mem_Ico {a b c d : ℝ} :
    ∀ᵐ p : ℝ × ℝ ∂(volume.restrict (Ioc a b ×ˢ Ioc c d)), p.1 ∈ Ico a b ∧ p.2 ∈ Ico c d := by
  rw [ae_restrict_iff' (measurableSet_Ioc.prod measurableSet_Ioc)]
  have h1 : ∀ᵐ p : ℝ × ℝ, p.1 ≠ b := by
    have : ∀ᵐ x : ℝ, x ≠ b := by rw [ae_iff]; simp
    exact Measure.quasiMeasurePreserving_fst.ae this
  have h2 : ∀ᵐ p : ℝ × ℝ, p.2 ≠ d := by
    have : ∀ᵐ x : ℝ, x ≠ d := by rw [ae_iff]; simp
    exact Measure.quasiMeasurePreserving_snd.ae this
  filter_upwards [h1, h2] with p hp1 hp2 hp
  exact ⟨⟨hp.1.1.le, lt_of_le_of_ne hp.1.2 hp1⟩, ⟨hp.2.1.le, lt_of_le_of_ne hp.2.2 hp2⟩⟩

/-- The mean over the grid is the integral of the step function. -/
theorem integral_gridStep (g : ℝ × ℝ → ℝ) {a b c d : ℝ} (hab : a < b) (hcd : c < d) {C : ℝ}
    (hC : ∀ p ∈ Icc a b ×ˢ Icc c d, |g p| ≤ C) {n : ℕ} (hn : 2 ≤ n) :
    ∫ p in Ioc a b ×ˢ Ioc c d, gridStep g a b c d n p = (b - a) / n * ((d - c) / n)
      * ∑ i ∈ Finset.range n, ∑ j ∈ Finset.range n,
        g (a + (i : ℝ) * ((b - a) / ((n : ℝ) - 1)), c + (j : ℝ) * ((d - c) / ((n : ℝ) - 1))) := by
  have hint : IntegrableOn (gridStep g a b c d n) (Ioc a b ×ˢ Ioc c d) (volume.prod volume) := by
    refine Measure.integrableOn_of_bounded (M := C) ?_ (measurable_gridStep g a b c d n).aestronglyMeasurable ?_
    · rw [Measure.prod_prod]; simp [ENNReal.mul_eq_top]
    · filter_upwards [ae_mem_Ico (a := a) (b := b) (c := c) (d := d)] with p hp
      exact hC _ ⟨(gridTag_near hab hn hp.1).1, (gridTag_near hcd hn hp.2).1⟩
  rw [Measure.volume_eq_prod, setIntegral_prod _ hint]
  have hinner : ∀ x, ∫ y in Ioc c d, gridStep g a b c d n (x, y) = (d - c) / n * ∑ j ∈ Finset.range n,
      g (gridTag a b n x, c + (j : ℝ) * ((d - c) / ((n : ℝ) - 1))) := by
    intro x
    rw [← intervalIntegral.integral_of_le hcd.le]
    exact integral_steps (fun j => g (gridTag a b n x, c + (j : ℝ) * ((d - c) / ((n : ℝ) - 1)))) hcd (by omega)
  simp only [hinner]
  rw [← intervalIntegral.integral_of_le hab.le]
  have := integral_steps (fun i => (d - c) / n * ∑ j ∈ Finset.range n,
    g (a + (i : ℝ) * ((b - a) / ((n : ℝ) - 1)), c + (j : ℝ) * ((d - c) / ((n : ℝ) - 1)))) hab (n := n) (by omega)
  simp only [gridTag]
  rw [this, ← Finset.mul_sum]
  ring

/-- Means over finer and finer grids converge to the integral of a bounded, almost everywhere continuous
function. -/
theorem tendsto_gridStep (g : ℝ × ℝ → ℝ) {a b c d : ℝ} (hab : a < b) (hcd : c < d) {C : ℝ}
    (hC : ∀ p ∈ Icc a b ×ˢ Icc c d, |g p| ≤ C)
    (hg : ∀ᵐ p : ℝ × ℝ ∂(volume.restrict (Icc a b ×ˢ Icc c d)), ContinuousWithinAt g (Icc a b ×ˢ Icc c d) p) :
    Tendsto (fun n => ∫ p in Ioc a b ×ˢ Ioc c d, gridStep g a b c d n p) atTop
      (𝓝 (∫ p in Ioc a b ×ˢ Ioc c d, g p)) := by
  have hfin : volume (Ioc a b ×ˢ Ioc c d) ≠ ⊤ := by
    rw [Measure.volume_eq_prod, Measure.prod_prod]; simp [ENNReal.mul_eq_top]
  have hsub : Ioc a b ×ˢ Ioc c d ⊆ Icc a b ×ˢ Icc c d := prod_mono Ioc_subset_Icc_self Ioc_subset_Icc_self
  refine tendsto_integral_filter_of_dominated_convergence (fun _ => C) ?_ ?_ ?_ ?_
  · exact Eventually.of_forall fun n => (measurable_gridStep g a b c d n).aestronglyMeasurable
  · filter_upwards [eventually_ge_atTop 2] with n hn
    filter_upwards [ae_mem_Ico (a := a) (b := b) (c := c) (d := d)] with p hp
    exact hC _ ⟨(gridTag_near hab hn hp.1).1, (gridTag_near hcd hn hp.2).1⟩
  · exact integrableOn_const hfin
  · filter_upwards [ae_mem_Ico (a := a) (b := b) (c := c) (d := d), ae_restrict_of_ae_restrict_of_subset hsub hg]
      with p hp hgp
    refine hgp.tendsto.comp (tendsto_nhdsWithin_iff.2 ⟨?_, ?_⟩)
    · have key : ∀ {a b : ℝ}, a < b → ∀ {x : ℝ}, x ∈ Ico a b → Tendsto (fun n => gridTag a b n x) atTop (𝓝 x) := by
        intro a b hab x hx
        rw [tendsto_iff_dist_tendsto_zero]
        refine squeeze_zero' (Eventually.of_forall fun _ => dist_nonneg) ?_
          (tendsto_const_div_atTop_nhds_zero_nat (b - a))
        filter_upwards [eventually_ge_atTop 2] with n hn
        exact (gridTag_near hab hn hx).2
      exact (key hab hp.1).prodMk_nhds (key hcd hp.2)
    · filter_upwards [eventually_ge_atTop 2] with n hn
      exact ⟨(gridTag_near hab hn hp.1).1, (gridTag_near hcd hn hp.2).1⟩

/-- How far the mean over the grid is from the integral of a function that changes by at most `ε` over a
distance of one grid step. -/
theorem gridStep_rate (g : ℝ × ℝ → ℝ) {a b c d : ℝ} (hab : a < b) (hcd : c < d)
    (hg : ContinuousOn g (Icc a b ×ˢ Icc c d)) {n : ℕ} (hn : 2 ≤ n) {ε : ℝ}
    (hε : ∀ p ∈ Icc a b ×ˢ Icc c d, ∀ q ∈ Icc a b ×ˢ Icc c d, |p.1 - q.1| ≤ (b - a) / n →
      |p.2 - q.2| ≤ (d - c) / n → |g p - g q| ≤ ε) :
    |(∫ p in Ioc a b ×ˢ Ioc c d, gridStep g a b c d n p) - ∫ p in Ioc a b ×ˢ Ioc c d, g p|
      ≤ ε * ((b - a) * (d - c)) := by
  have hcomp : IsCompact (Icc a b ×ˢ Icc c d) := isCompact_Icc.prod isCompact_Icc
  obtain ⟨C, hC⟩ := hcomp.exists_bound_of_continuousOn hg
  have hfin : volume (Ioc a b ×ˢ Ioc c d) ≠ ⊤ := by
    rw [Measure.volume_eq_prod, Measure.prod_prod]; simp [ENNReal.mul_eq_top]
  have hsub : Ioc a b ×ˢ Ioc c d ⊆ Icc a b ×ˢ Icc c d := prod_mono Ioc_subset_Icc_self Ioc_subset_Icc_self
  have h1 : IntegrableOn (gridStep g a b c d n) (Ioc a b ×ˢ Ioc c d) := by
    refine Measure.integrableOn_of_bounded (M := C) hfin (measurable_gridStep g a b c d n).aestronglyMeasurable ?_
    filter_upwards [ae_mem_Ico (a := a) (b := b) (c := c) (d := d)] with p hp
    exact hC _ ⟨(gridTag_near hab hn hp.1).1, (gridTag_near hcd hn hp.2).1⟩
  have h2 : IntegrableOn g (Ioc a b ×ˢ Ioc c d) := (hg.integrableOn_compact hcomp).mono_set hsub
  rw [← integral_sub h1 h2]
  have hvol : volume.real (Ioc a b ×ˢ Ioc c d) = (b - a) * (d - c) := by
    rw [Measure.real, Measure.volume_eq_prod, Measure.prod_prod, Real.volume_Ioc, Real.volume_Ioc, ENNReal.toReal_mul,
      ENNReal.toReal_ofReal (by linarith), ENNReal.toReal_ofReal (by linarith)]
  rw [← hvol, ← Real.norm_eq_abs]
  refine norm_setIntegral_le_of_norm_le_const_ae' (lt_top_iff_ne_top.2 hfin) ?_
  have := ae_mem_Ico (a := a) (b := b) (c := c) (d := d)
  rw [ae_restrict_iff' (measurableSet_Ioc.prod measurableSet_Ioc)] at this
  filter_upwards [this] with p hp hp'
  have hp := hp hp'
  have t1 := gridTag_near hab hn hp.1
  have t2 := gridTag_near hcd hn hp.2
  exact hε (gridTag a b n p.1, gridTag c d n p.2) ⟨t1.1, t2.1⟩ p (hsub hp') t1.2 t2.2

end Caustics

import Verif.Model.Gaussian
import Mathlib.Algebra.BigOperators.Field
import Mathlib.Algebra.Order.BigOperators.Ring.Finset
import Mathlib.Tactic.Positivity
import Mathlib.Tactic.FieldSimp
import Mathlib.Tactic.Linarith
import Mathlib.Tactic.NormNum
import Mathlib.Tactic.Ring

/-! C48 (the Gaussian kernel is a normalised, symmetric, centred PSF) and C60 (what upsampling does to
it). -/

namespace Caustics

/-- One-dimensional Gaussian summed over the `u` sub-pixels of pixel `j` of a row of `n` pixels, when
the sub-pixels have size `ps`. -/
noncomputable def gauss1 (ps sigma : ℝ) (n u j : ℕ) : ℝ :=
  ∑ b ∈ Finset.range u, Real.exp (-0.5 * (((j * u + b : ℕ) : ℝ) - ((n * u : ℕ) - 1 : ℝ) / 2) ^ 2 * ps ^ 2 / sigma ^ 2)

theorem linspace_centred (ps : ℝ) {N m : ℕ} (h : m < N) :
    (linspace (-((N : ℝ) - 1) * ps / 2) (((N : ℝ) - 1) * ps / 2) N).getD m 0 = ((m : ℝ) - ((N : ℝ) - 1) / 2) * ps := by
  unfold linspace
  rw [List.getD_eq_getElem?_getD, List.getElem?_map, List.getElem?_range h]
  simp only [Option.map_some, Option.getD_some]
  split
  · rename_i h1
    subst h1
    have : m = 0 := by omega
    subst this
    norm_num
  · rename_i h1
    have : (N : ℝ) - 1 ≠ 0 := by
      have : (2 : ℝ) ≤ N := by exact_mod_cast (by omega : 2 ≤ N)
      intro hc; linarith
    field_simp
    ring

theorem lt_of_block {n u j b : ℕ} (hj : j < n) (hb : b < u) : j * u + b < n * u :=
  calc j * u + b < (j + 1) * u := by rw [Nat.add_mul]; omega
    _ ≤ _ := Nat.mul_le_mul_right _ hj

/-- The kernel is a product of one-dimensional kernels. -/
theorem gaussian_at (ps sigma : ℝ) (nx ny u : ℕ) {i j : ℕ} (hi : i < ny) (hj : j < nx) :
    (gaussianKernel ps nx ny sigma u).at' i j =
      gauss1 ps sigma ny u i * gauss1 ps sigma nx u j /
        ((∑ a ∈ Finset.range ny, gauss1 ps sigma ny u a) * ∑ b ∈ Finset.range nx, gauss1 ps sigma nx u b) := by
  have key : ∀ i j, i < ny → j < nx →
      (∑ a ∈ Finset.range u, ∑ b ∈ Finset.range u, Real.exp (-0.5 *
        ((linspace (-((nx : ℝ) * u - 1) * ps / 2) (((nx : ℝ) * u - 1) * ps / 2) (nx * u)).getD (j * u + b) 0 ^ 2 +
          (linspace (-((ny : ℝ) * u - 1) * ps / 2) (((ny : ℝ) * u - 1) * ps / 2) (ny * u)).getD (i * u + a) 0 ^ 2)
            / sigma ^ 2)) = gauss1 ps sigma ny u i * gauss1 ps sigma nx u j := by
    intro i j hi hj
    unfold gauss1
    rw [Finset.sum_mul_sum]
    refine Finset.sum_congr rfl fun a ha => Finset.sum_congr rfl fun b hb => ?_
    rw [Finset.mem_range] at ha hb
    have e1 := linspace_centred ps (lt_of_block hj hb)
    have e2 := linspace_centred ps (lt_of_block hi ha)
    rw [← Real.exp_add]
    push_cast at e1 e2 ⊢
    rw [e1, e2]
    congr 1
    ring
  have hsum : (∑ i ∈ Finset.range ny, ∑ j ∈ Finset.range nx, ∑ a ∈ Finset.range u, ∑ b ∈ Finset.range u,
      Real.exp (-0.5 *
        ((linspace (-((nx : ℝ) * u - 1) * ps / 2) (((nx : ℝ) * u - 1) * ps / 2) (nx * u)).getD (j * u + b) 0 ^ 2 +
          (linspace (-((ny : ℝ) * u - 1) * ps / 2) (((ny : ℝ) * u - 1) * ps / 2) (ny * u)).getD (i * u + a) 0 ^ 2)
            / sigma ^ 2))
      = (∑ a ∈ Finset.range ny, gauss1 ps sigma ny u a) * ∑ b ∈ Finset.range nx, gauss1 ps sigma nx u b := by
    rw [Finset.sum_mul_sum]
    exact Finset.sum_congr rfl fun i hi => Finset.sum_congr rfl fun j hj =>
      key i j (Finset.mem_range.1 hi) (Finset.mem_range.1 hj)
  unfold gaussianKernel Img.div Img.sum
  simp only
  rw [key i j hi hj, hsum]

theorem gauss1_pos (ps sigma : ℝ) (n j : ℕ) {u : ℕ} (hu : 0 < u) : 0 < gauss1 ps sigma n u j :=
  Finset.sum_pos (fun _ _ => Real.exp_pos _) ⟨0, Finset.mem_range.2 hu⟩

theorem gauss1_sum_pos (ps sigma : ℝ) {n u : ℕ} (hu : 0 < u) (hn : 0 < n) :
    0 < ∑ a ∈ Finset.range n, gauss1 ps sigma n u a :=
  Finset.sum_pos (fun _ _ => gauss1_pos _ _ _ _ hu) ⟨0, Finset.mem_range.2 hn⟩

theorem gauss1_reflect (ps sigma : ℝ) {n u j : ℕ} (hj : j < n) :
    gauss1 ps sigma n u (n - 1 - j) = gauss1 ps sigma n u j := by
  unfold gauss1
  rw [← Finset.sum_range_reflect]
  refine Finset.sum_congr rfl fun b hb => ?_
  rw [Finset.mem_range] at hb
  have hl := lt_of_block hj hb
  have e : (n - 1 - j) * u + (u - 1 - b) = n * u - 1 - (j * u + b) := by
    have : n * u = (n - 1 - j) * u + j * u + u := by
      calc n * u = (n - 1 - j + j + 1) * u := by congr 1; omega
        _ = _ := by ring
    omega
  have e2 : (((n - 1 - j) * u + (u - 1 - b) : ℕ) : ℝ) = ((n * u : ℕ) : ℝ) - 1 - ((j * u + b : ℕ) : ℝ) := by
    rw [e, Nat.cast_sub (by omega), Nat.cast_sub (by omega), Nat.cast_one]
  rw [e2]
  congr 3
  ring

/-- The middle pixel (either of the two for an even number) has the largest weight. -/
theorem gauss1_le_centre (ps sigma : ℝ) {n u j : ℕ} (hj : j < n) :
    gauss1 ps sigma n u j ≤ gauss1 ps sigma n u ((n - 1) / 2) := by
  wlog hle : j ≤ (n - 1) / 2 generalizing j
  · rw [← gauss1_reflect ps sigma hj]
    exact this (by omega) (by omega)
  rcases Nat.eq_or_lt_of_le hle with h | hlt
  · rw [h]
  set c := (n - 1) / 2 with hc
  unfold gauss1
  refine Finset.sum_le_sum fun b hb => Real.exp_le_exp.2 ?_
  rw [Finset.mem_range] at hb
  have h1 : (j + 1) * u ≤ c * u := Nat.mul_le_mul_right _ hlt
  have h2 : 2 * c * u ≤ (n - 1) * u := Nat.mul_le_mul_right _ (by omega)
  have h3 : (n - 1) * u = n * u - u := by rw [Nat.sub_mul, Nat.one_mul]
  have h4 : u ≤ n * u := Nat.le_mul_of_pos_left _ (by omega)
  have a1 : ((j : ℝ) + 1) * u ≤ c * u := by exact_mod_cast h1
  have a2 : 2 * (c : ℝ) * u ≤ n * u - u := by
    have : 2 * c * u + u ≤ n * u := by omega
    have : (2 : ℝ) * c * u + u ≤ n * u := by exact_mod_cast this
    linarith
  have a3 : (b : ℝ) + 1 ≤ u := by exact_mod_cast hb
  have a4 : (0 : ℝ) ≤ b := Nat.cast_nonneg b
  have hsq : (((c * u + b : ℕ) : ℝ) - ((n * u : ℕ) - 1 : ℝ) / 2) ^ 2
      ≤ (((j * u + b : ℕ) : ℝ) - ((n * u : ℕ) - 1 : ℝ) / 2) ^ 2 := by
    push_cast
    refine sq_le_sq.2 ?_
    have hneg : (j : ℝ) * u + b - (n * u - 1) / 2 ≤ 0 := by linarith
    rw [abs_of_nonpos hneg, abs_le]
    constructor <;> linarith
  have hp : 0 ≤ ps ^ 2 / sigma ^ 2 := by positivity
  have := mul_le_mul_of_nonneg_right hsq hp
  have e : ∀ t : ℝ, -0.5 * t * ps ^ 2 / sigma ^ 2 = -0.5 * (t * (ps ^ 2 / sigma ^ 2)) := fun t => by ring
  rw [e, e]
  linarith

/-- Every entry is positive and they sum to one. -/
theorem C48_normalised {ps sigma : ℝ} (_hs : 0 < sigma) {nx ny u : ℕ} (hu : 0 < u) (hx : 0 < nx) (hy : 0 < ny) :
    let k := gaussianKernel ps nx ny sigma u
    k.h = ny ∧ k.w = nx ∧ (∀ i j, i < ny → j < nx → 0 < k.at' i j) ∧
      ∑ i ∈ Finset.range ny, ∑ j ∈ Finset.range nx, k.at' i j = 1 := by
  have p1 := gauss1_sum_pos ps sigma hu hy
  have p2 := gauss1_sum_pos ps sigma hu hx
  refine ⟨rfl, rfl, fun i j hi hj => ?_, ?_⟩
  · rw [gaussian_at ps sigma nx ny u hi hj]
    exact div_pos (mul_pos (gauss1_pos ps sigma ny i hu) (gauss1_pos ps sigma nx j hu)) (mul_pos p1 p2)
  · have e : ∑ i ∈ Finset.range ny, ∑ j ∈ Finset.range nx, (gaussianKernel ps nx ny sigma u).at' i j
        = ∑ i ∈ Finset.range ny, ∑ j ∈ Finset.range nx, gauss1 ps sigma ny u i * gauss1 ps sigma nx u j /
          ((∑ a ∈ Finset.range ny, gauss1 ps sigma ny u a) * ∑ b ∈ Finset.range nx, gauss1 ps sigma nx u b) :=
      Finset.sum_congr rfl fun i hi => Finset.sum_congr rfl fun j hj =>
        gaussian_at ps sigma nx ny u (Finset.mem_range.1 hi) (Finset.mem_range.1 hj)
    refine e.trans ?_
    simp only [← Finset.sum_div]
    rw [← Finset.sum_mul_sum, div_self (mul_pos p1 p2).ne']

/-- Unchanged by reflection in either direction. -/
theorem C48_symmetric (ps : ℝ) {sigma : ℝ} (_hs : 0 < sigma) {nx ny : ℕ} (u : ℕ) {i j : ℕ} (hi : i < ny) (hj : j < nx) :
    let k := gaussianKernel ps nx ny sigma u
    k.at' (ny - 1 - i) j = k.at' i j ∧ k.at' i (nx - 1 - j) = k.at' i j := by
  intro k
  constructor
  · rw [gaussian_at ps sigma nx ny u (by omega) hj, gaussian_at ps sigma nx ny u hi hj, gauss1_reflect ps sigma hi]
  · rw [gaussian_at ps sigma nx ny u hi (by omega), gaussian_at ps sigma nx ny u hi hj, gauss1_reflect ps sigma hj]

/-- The largest entry is in the middle. -/
theorem C48_centred (ps : ℝ) {sigma : ℝ} (_hs : 0 < sigma) {nx ny u : ℕ} (hu : 0 < u) {i j : ℕ} (hi : i < ny) (hj : j < nx) :
    (gaussianKernel ps nx ny sigma u).at' i j ≤ (gaussianKernel ps nx ny sigma u).at' ((ny - 1) / 2) ((nx - 1) / 2) := by
  have p1 := gauss1_sum_pos ps sigma hu (by omega : 0 < ny)
  have p2 := gauss1_sum_pos ps sigma hu (by omega : 0 < nx)
  rw [gaussian_at ps sigma nx ny u hi hj, gaussian_at ps sigma nx ny u (by omega) (by omega)]
  refine div_le_div_of_nonneg_right ?_ (by positivity)
  exact mul_le_mul (gauss1_le_centre ps sigma hi) (gauss1_le_centre ps sigma hj) (gauss1_pos _ _ _ _ hu).le
    (gauss1_pos _ _ _ _ hu).le

/-- Without upsampling: ratios of neighbouring entries are those of the Gaussian. -/
theorem C48_profile (ps : ℝ) {sigma : ℝ} (_hs : 0 < sigma) {nx ny : ℕ} {i j j' : ℕ} (hi : i < ny) (hj : j < nx) (hj' : j' < nx) :
    let k := gaussianKernel ps nx ny sigma 1
    let X (m : ℕ) : ℝ := (m - ((nx : ℝ) - 1) / 2) * ps
    k.at' i j * Real.exp (-(X j') ^ 2 / (2 * sigma ^ 2)) = k.at' i j' * Real.exp (-(X j) ^ 2 / (2 * sigma ^ 2)) := by
  intro k X
  rw [gaussian_at ps sigma nx ny 1 hi hj, gaussian_at ps sigma nx ny 1 hi hj']
  have : ∀ m, gauss1 ps sigma nx 1 m = Real.exp (-(X m) ^ 2 / (2 * sigma ^ 2)) := by
    intro m
    simp only [gauss1, Finset.sum_range_one, X]
    congr 1
    push_cast
    ring
  rw [this, this]
  ring

example : (gaussianKernel 1 1 1 1 1).at' 0 0 = 1 := by
  have := (C48_normalised (ps := 1) (sigma := 1) (nx := 1) (ny := 1) (u := 1) one_pos (by norm_num) (by norm_num)
    (by norm_num)).2.2.2
  simpa using this

/-- Entry above the centre of a 3 by 3 kernel relative to the centre. -/
example : (gaussianKernel 1 3 3 1 1).at' 1 0 = (gaussianKernel 1 3 3 1 1).at' 1 1 * Real.exp (-(1 / 2)) := by
  have := C48_profile 1 (sigma := 1) one_pos (nx := 3) (ny := 3) (i := 1) (j := 0) (j' := 1) (by norm_num) (by norm_num) (by norm_num)
  norm_num at this
  exact this

/-! ### C60 -/

/-- The kernel a user asks for: pixels of size `P`, each represented by `u` by `u` points inside it,
summed and normalised. -/
noncomputable def pixelGaussian (P sigma : ℝ) (nx ny u : ℕ) : Img :=
  let pos (n j b : ℕ) : ℝ := ((j : ℝ) - ((n : ℝ) - 1) / 2) * P + ((b : ℝ) - ((u : ℝ) - 1) / 2) * (P / u)
  let Z : Img := ⟨ny, nx, fun i j => ∑ a ∈ Finset.range u, ∑ b ∈ Finset.range u,
    Real.exp (-(pos nx j b ^ 2 + pos ny i a ^ 2) / (2 * sigma ^ 2))⟩
  Z.div Z.sum

/-- The claim. -/
def C60_statement : Prop :=
  ∀ (ps sigma : ℝ) (nx ny u : ℕ), 0 < ps → 0 < sigma → 0 < u →
    Img.Same (gaussianKernel ps nx ny sigma u) (pixelGaussian ps sigma nx ny u)

theorem pixelGaussian_at (P sigma : ℝ) (nx ny : ℕ) {u i j : ℕ} (hu : 0 < u) :
    (pixelGaussian P sigma nx ny u).at' i j =
      gauss1 (P / u) sigma ny u i * gauss1 (P / u) sigma nx u j /
        ((∑ a ∈ Finset.range ny, gauss1 (P / u) sigma ny u a) * ∑ b ∈ Finset.range nx, gauss1 (P / u) sigma nx u b) := by
  have hu' : (u : ℝ) ≠ 0 := by positivity
  have key : ∀ i j : ℕ, (∑ a ∈ Finset.range u, ∑ b ∈ Finset.range u,
      Real.exp (-((((j : ℝ) - ((nx : ℝ) - 1) / 2) * P + ((b : ℝ) - ((u : ℝ) - 1) / 2) * (P / u)) ^ 2
        + (((i : ℝ) - ((ny : ℝ) - 1) / 2) * P + ((a : ℝ) - ((u : ℝ) - 1) / 2) * (P / u)) ^ 2) / (2 * sigma ^ 2)))
      = gauss1 (P / u) sigma ny u i * gauss1 (P / u) sigma nx u j := by
    intro i j
    unfold gauss1
    rw [Finset.sum_mul_sum]
    refine Finset.sum_congr rfl fun a _ => Finset.sum_congr rfl fun b _ => ?_
    rw [← Real.exp_add]
    congr 1
    have e : ∀ (n k c : ℕ), ((k : ℝ) - ((n : ℝ) - 1) / 2) * P + ((c : ℝ) - ((u : ℝ) - 1) / 2) * (P / u)
        = (((k * u + c : ℕ) : ℝ) - ((n * u : ℕ) - 1 : ℝ) / 2) * (P / u) := by
      intro n k c
      push_cast
      field_simp
      ring
    rw [e, e]
    ring
  unfold pixelGaussian Img.div Img.sum
  simp only [key]
  rw [Finset.sum_mul_sum]

/-- What the code computes: the pixels have size `upsample * pixelscale`, because the sub-pixels are
given the size `pixelscale`. -/
theorem C60_effective (ps : ℝ) {sigma : ℝ} (_hs : 0 < sigma) (nx ny : ℕ) {u : ℕ} (hu : 0 < u) :
    Img.Same (gaussianKernel ps nx ny sigma u) (pixelGaussian (u * ps) sigma nx ny u) := by
  have hu' : (u : ℝ) ≠ 0 := by positivity
  refine ⟨rfl, rfl, fun i j hi hj => ?_⟩
  rw [gaussian_at ps sigma nx ny u hi hj, pixelGaussian_at _ _ _ _ hu, mul_div_cancel_left₀ _ hu']

/-- Without upsampling the kernel is as asked for.  Missing: any other upsampling. -/
theorem C60_partial (ps : ℝ) {sigma : ℝ} (hs : 0 < sigma) (nx ny : ℕ) :
    Img.Same (gaussianKernel ps nx ny sigma 1) (pixelGaussian ps sigma nx ny 1) := by
  have := C60_effective ps hs nx ny (u := 1) one_pos
  simpa using this

/-- Three pixels of size one, `sigma = 1`, `upsample = 2`: the outer pixels get less than they should. -/
theorem C60_fails : ¬ C60_statement := by
  intro h
  have hs := h 1 1 3 1 2 one_pos one_pos (by norm_num)
  have h2 := hs.2.2 0 0 (by change 0 < 1; norm_num) (by change 0 < 3; norm_num)
  rw [gaussian_at 1 1 3 1 2 (by norm_num) (by norm_num), pixelGaussian_at _ _ _ _ (by norm_num)] at h2
  simp only [Finset.sum_range_one] at h2
  have c1 : gauss1 1 1 1 2 0 ≠ 0 := (gauss1_pos _ _ _ _ (by norm_num)).ne'
  have c2 : gauss1 (1 / (2 : ℕ)) 1 1 2 0 ≠ 0 := (gauss1_pos _ _ _ _ (by norm_num)).ne'
  rw [mul_div_mul_left _ _ c1, mul_div_mul_left _ _ c2] at h2
  -- outer over total, with outer twice
  set a := Real.exp (-(1 / 32)) with ha
  have ea : ∀ m : ℕ, Real.exp (-(m / 32 : ℝ)) = a ^ m := by
    intro m
    rw [ha, ← Real.exp_nat_mul]
    congr 1
    ring
  have o1 : gauss1 1 1 3 2 0 = a ^ 100 + a ^ 36 := by
    simp only [gauss1, Finset.sum_range_succ, Finset.sum_range_zero, zero_add]
    rw [← ea, ← ea]
    congr 2 <;> norm_num
  have o2 : gauss1 1 1 3 2 1 = a ^ 4 + a ^ 4 := by
    simp only [gauss1, Finset.sum_range_succ, Finset.sum_range_zero, zero_add]
    rw [← ea]
    congr 2 <;> norm_num
  have o3 : gauss1 1 1 3 2 2 = a ^ 100 + a ^ 36 := by
    rw [← o1]; exact gauss1_reflect 1 1 (n := 3) (u := 2) (j := 0) (by norm_num)
  have q1 : gauss1 (1 / (2 : ℕ)) 1 3 2 0 = a ^ 25 + a ^ 9 := by
    simp only [gauss1, Finset.sum_range_succ, Finset.sum_range_zero, zero_add]
    rw [← ea, ← ea]
    congr 2 <;> norm_num
  have q2 : gauss1 (1 / (2 : ℕ)) 1 3 2 1 = a + a := by
    simp only [gauss1, Finset.sum_range_succ, Finset.sum_range_zero, zero_add]
    rw [ha]
    congr 2 <;> norm_num
  have q3 : gauss1 (1 / (2 : ℕ)) 1 3 2 2 = a ^ 25 + a ^ 9 := by
    rw [← q1]; exact gauss1_reflect _ 1 (n := 3) (u := 2) (j := 0) (by norm_num)
  simp only [Finset.sum_range_succ, Finset.sum_range_zero, zero_add, o1, o2, o3, q1, q2, q3] at h2
  have a0 : 0 < a := Real.exp_pos _
  have a1 : a < 1 := by rw [ha, Real.exp_lt_one_iff]; norm_num
  rw [div_eq_div_iff (by positivity) (by positivity)] at h2
  -- (a^100 + a^36) * 2 a = (a^25 + a^9) * 2 a^4
  have h3 : (a ^ 100 + a ^ 36) * a = (a ^ 25 + a ^ 9) * a ^ 4 := by linear_combination h2 / 2
  have h4 : (a ^ 100 + a ^ 36) * a < (a ^ 25 + a ^ 9) * a ^ 4 := by
    have p1 : a ^ 101 < a ^ 29 := pow_lt_pow_right_of_lt_one₀ a0 a1 (by norm_num)
    have p2 : a ^ 37 < a ^ 13 := pow_lt_pow_right_of_lt_one₀ a0 a1 (by norm_num)
    nlinarith [p1, p2]
  exact h4.ne h3

end Caustics

import Verif.Lemmas.FourImages
import Verif.Props.FirstImageLenses
import Verif.Props.MassSheetDegeneracy

/-! C96: an isothermal ellipsoid shows a source at most four times. -/

open Real Set

namespace Caustics

/-- The positions, other than the centre of the lens, at which a SIE without core shows the source `b`.
At the centre the code returns `nan`. -/
def sieImages (x0 y0 q phi Rein : ℝ) (b : ℝ × ℝ) : Set (ℝ × ℝ) :=
  {p | p ≠ (x0, y0) ∧ (⟨0, sieDeflection x0 y0 q phi Rein 0, siePotential x0 y0 q phi Rein 0⟩ : ThinLensFn ℝ).raytrace p.1 p.2 = b}

/-- The same in the frame of the lens. -/
def frameImages (q f A b1 b2 : ℝ) : Set (ℝ × ℝ) :=
  {u | u ≠ 0 ∧ u.1 - A * arctan (f * u.1 / √(q ^ 2 * u.1 ^ 2 + u.2 ^ 2)) = b1 ∧
    u.2 - A * artanh (f * u.2 / √(q ^ 2 * u.1 ^ 2 + u.2 ^ 2)) = b2}

theorem translateRotate_derotate (x0 y0 phi : ℝ) (u : ℝ × ℝ) :
    translateRotate (x0 + (derotate u.1 u.2 (some phi)).1) (y0 + (derotate u.1 u.2 (some phi)).2) x0 y0 (some phi) = u := by
  have cs := sin_sq_add_cos_sq phi
  ext <;> simp only [translateRotate, derotate, add_sub_cancel_left]
  · linear_combination u.1 * cs
  · linear_combination u.2 * cs

theorem derotate_translateRotate (x0 y0 phi : ℝ) (p : ℝ × ℝ) :
    let u := translateRotate p.1 p.2 x0 y0 (some phi)
    (x0 + (derotate u.1 u.2 (some phi)).1, y0 + (derotate u.1 u.2 (some phi)).2) = p := by
  have cs := sin_sq_add_cos_sq phi
  intro u
  ext <;> simp only [u, translateRotate, derotate]
  · linear_combination (p.1 - x0) * cs
  · linear_combination (p.2 - y0) * cs

theorem mem_sieImages (x0 y0 q phi Rein : ℝ) (b p : ℝ × ℝ) :
    p ∈ sieImages x0 y0 q phi Rein b ↔ translateRotate p.1 p.2 x0 y0 (some phi) ∈
      frameImages (sieQ q) (√(1 - sieQ q ^ 2)) (Rein * √(sieQ q) / √(1 - sieQ q ^ 2))
        (translateRotate b.1 b.2 x0 y0 (some phi)).1 (translateRotate b.1 b.2 x0 y0 (some phi)).2 := by
  have cs := sin_sq_add_cos_sq phi
  have hc : p ≠ (x0, y0) ↔ translateRotate p.1 p.2 x0 y0 (some phi) ≠ 0 := by
    constructor
    · intro h h0
      have := derotate_translateRotate x0 y0 phi p
      simp only [h0, Prod.fst_zero, Prod.snd_zero, derotate, zero_mul, sub_zero, add_zero] at this
      exact h this.symm
    · rintro h rfl
      exact h (by simp [translateRotate])
  simp only [sieImages, frameImages, Set.mem_ofPred_eq, hc]
  refine and_congr_right fun _ => ?_
  simp only [ThinLensFn.raytrace, sieDeflection, zero_pow two_ne_zero, add_zero, mul_zero]
  generalize arctan _ = a1
  generalize artanh _ = a2
  generalize Rein * √(sieQ q) / √(1 - sieQ q ^ 2) = A
  rw [Prod.ext_iff]
  simp only [derotate, translateRotate]
  constructor
  · rintro ⟨h1, h2⟩
    rw [← h1, ← h2]
    constructor
    · linear_combination A * a1 * cs
    · linear_combination A * a2 * cs
  · rintro ⟨h1, h2⟩
    constructor
    · linear_combination cos phi * h1 - sin phi * h2 + (b.1 - p.1) * cs
    · linear_combination sin phi * h1 + cos phi * h2 + (b.2 - p.2) * cs

/-- Number of images on the sky and in the frame. -/
theorem sieImages_eq (x0 y0 q phi Rein : ℝ) (b : ℝ × ℝ) :
    sieImages x0 y0 q phi Rein b = (fun u : ℝ × ℝ => (x0 + (derotate u.1 u.2 (some phi)).1, y0 + (derotate u.1 u.2 (some phi)).2)) ''
      frameImages (sieQ q) (√(1 - sieQ q ^ 2)) (Rein * √(sieQ q) / √(1 - sieQ q ^ 2))
        (translateRotate b.1 b.2 x0 y0 (some phi)).1 (translateRotate b.1 b.2 x0 y0 (some phi)).2 := by
  ext p
  rw [mem_sieImages, Set.mem_image]
  constructor
  · intro h
    exact ⟨_, h, derotate_translateRotate x0 y0 phi p⟩
  · rintro ⟨u, hu, rfl⟩
    rw [translateRotate_derotate]
    exact hu

theorem derotate_injective (x0 y0 phi : ℝ) :
    Function.Injective (fun u : ℝ × ℝ => (x0 + (derotate u.1 u.2 (some phi)).1, y0 + (derotate u.1 u.2 (some phi)).2)) := by
  intro u v h
  simp only [Prod.mk.injEq] at h
  rw [← translateRotate_derotate x0 y0 phi u, ← translateRotate_derotate x0 y0 phi v, h.1, h.2]

variable {q f A : ℝ}

/-- A position in any quadrant, reflected into the first. -/
theorem frame_ray (hq : 0 < q) {σ τ X T : ℝ} (hσ : σ = 1 ∨ σ = -1) (hτ : τ = 1 ∨ τ = -1) (hX : 0 < X) (b1 b2 : ℝ) :
    (σ * X, τ * (T * X)) ∈ frameImages q f A b1 b2 ↔
      X = σ * b1 + A * rayX q f T ∧ T * X = τ * b2 + A * rayY q f T := by
  have hw := rayW_pos hq T
  have hs : √(q ^ 2 * (σ * X) ^ 2 + (τ * (T * X)) ^ 2) = X * √(q ^ 2 + T ^ 2) := by
    have hσ2 : σ ^ 2 = 1 := by rcases hσ with rfl | rfl <;> norm_num
    have hτ2 : τ ^ 2 = 1 := by rcases hτ with rfl | rfl <;> norm_num
    rw [show q ^ 2 * (σ * X) ^ 2 + (τ * (T * X)) ^ 2 = X ^ 2 * (q ^ 2 + T ^ 2) by
      linear_combination q ^ 2 * X ^ 2 * hσ2 + T ^ 2 * X ^ 2 * hτ2, Real.sqrt_mul (sq_nonneg X), Real.sqrt_sq hX.le]
  have e1 : arctan (f * (σ * X) / (X * √(q ^ 2 + T ^ 2))) = σ * rayX q f T := by
    have : f * (σ * X) / (X * √(q ^ 2 + T ^ 2)) = σ * (f / √(q ^ 2 + T ^ 2)) := by field_simp
    rw [this]
    rcases hσ with rfl | rfl
    · simp [rayX]
    · simp [rayX, Real.arctan_neg]
  have e2 : artanh (f * (τ * (T * X)) / (X * √(q ^ 2 + T ^ 2))) = τ * rayY q f T := by
    have : f * (τ * (T * X)) / (X * √(q ^ 2 + T ^ 2)) = τ * (f * T / √(q ^ 2 + T ^ 2)) := by field_simp
    rw [this]
    rcases hτ with rfl | rfl
    · simp [rayY]
    · simp [rayY, artanh_odd]
  have hne : (σ * X, τ * (T * X)) ≠ 0 := by
    intro h
    have := congrArg Prod.fst h
    simp only [Prod.fst_zero, mul_eq_zero] at this
    rcases this with h | h
    · rcases hσ with rfl | rfl <;> norm_num at h
    · exact hX.ne' h
  simp only [frameImages, Set.mem_ofPred_eq, hs, e1, e2, hne, ne_eq, not_false_eq_true, true_and]
  rcases hσ with rfl | rfl <;> rcases hτ with rfl | rfl <;>
    exact and_congr ⟨fun h => by linarith, fun h => by linarith⟩ ⟨fun h => by linarith, fun h => by linarith⟩

open Classical in
/-- Images in an open quadrant. -/
theorem frame_quadrant (hq : 0 < q) (hf : 0 < f) (hqf : f ^ 2 = 1 - q ^ 2) (hA : 0 < A) (b1 b2 : ℝ) {σ τ : ℝ}
    (hσ : σ = 1 ∨ σ = -1) (hτ : τ = 1 ∨ τ = -1) :
    (frameImages q f A b1 b2 ∩ {u | 0 < σ * u.1 ∧ 0 < τ * u.2}).encard
      ≤ (if 0 < σ * b1 then 1 else 0) + (if τ * b2 < 0 then 1 else 0) := by
  have hσ2 : σ * σ = 1 := by rcases hσ with rfl | rfl <;> norm_num
  have hτ2 : τ * τ = 1 := by rcases hτ with rfl | rfl <;> norm_num
  have key : ∀ u ∈ frameImages q f A b1 b2 ∩ {u | 0 < σ * u.1 ∧ 0 < τ * u.2},
      σ * u.1 = σ * b1 + A * rayX q f (τ * u.2 / (σ * u.1)) ∧ τ * u.2 = τ * b2 + A * rayY q f (τ * u.2 / (σ * u.1)) := by
    rintro u ⟨hu, hX, hY⟩
    have e : u = (σ * (σ * u.1), τ * (τ * u.2 / (σ * u.1) * (σ * u.1))) := by
      ext
      · simp only [← mul_assoc, hσ2, one_mul]
      · simp only [div_mul_cancel₀ _ hX.ne', ← mul_assoc, hτ2, one_mul]
    have := (frame_ray (A := A) (f := f) (T := τ * u.2 / (σ * u.1)) hq hσ hτ hX b1 b2).1 (e ▸ hu)
    rwa [div_mul_cancel₀ _ hX.ne'] at this
  refine (encard_le_encard_of_injOn (f := fun u : ℝ × ℝ => τ * u.2 / (σ * u.1)) ?_ ?_).trans
    (rayH_zeros hq hf hqf hA (σ * b1) (τ * b2))
  · intro u hu
    obtain ⟨h1, h2⟩ := key u hu
    refine ⟨div_pos hu.2.2 hu.2.1, ?_⟩
    unfold rayH
    rw [← h1, ← h2, div_mul_cancel₀ _ hu.2.1.ne', sub_self]
  · intro u hu v hv huv
    simp only at huv
    obtain ⟨h1, h2⟩ := key u hu
    obtain ⟨k1, k2⟩ := key v hv
    rw [huv] at h1 h2
    have a1 : σ * u.1 = σ * v.1 := h1.trans k1.symm
    have a2 : τ * u.2 = τ * v.2 := h2.trans k2.symm
    ext
    · calc u.1 = σ * (σ * u.1) := by rw [← mul_assoc, hσ2, one_mul]
        _ = v.1 := by rw [a1, ← mul_assoc, hσ2, one_mul]
    · calc u.2 = τ * (τ * u.2) := by rw [← mul_assoc, hτ2, one_mul]
        _ = v.2 := by rw [a2, ← mul_assoc, hτ2, one_mul]

theorem sqrt_axis {q x : ℝ} (hq : 0 < q) : √(q ^ 2 * x ^ 2 + 0 ^ 2) = q * |x| := by
  rw [zero_pow two_ne_zero, add_zero, ← mul_pow, Real.sqrt_sq_eq_abs, abs_mul, abs_of_pos hq]

theorem sqrt_axis' {q y : ℝ} : √(q ^ 2 * 0 ^ 2 + y ^ 2) = |y| := by
  rw [zero_pow two_ne_zero, mul_zero, zero_add, Real.sqrt_sq_eq_abs]

/-- Images on the major axis of the potential. -/
theorem frame_axis (hq : 0 < q) (b1 b2 x : ℝ) :
    (x, 0) ∈ frameImages q f A b1 b2 ↔
      b2 = 0 ∧ (0 < x ∧ x = b1 + A * arctan (f / q) ∨ x < 0 ∧ x = b1 - A * arctan (f / q)) := by
  simp only [frameImages, Set.mem_ofPred_eq, sqrt_axis hq, mul_zero, zero_div, artanh_zero, sub_zero]
  constructor
  · rintro ⟨h0, h1, h2⟩
    have hx : x ≠ 0 := fun h => h0 (by rw [h]; rfl)
    refine ⟨h2.symm, ?_⟩
    rcases lt_or_gt_of_ne hx with h | h
    · right
      refine ⟨h, ?_⟩
      rw [abs_of_neg h, show f * x / (q * -x) = -(f / q) by field_simp, Real.arctan_neg] at h1
      linarith
    · left
      refine ⟨h, ?_⟩
      rw [abs_of_pos h, show f * x / (q * x) = f / q by field_simp] at h1
      linarith
  · rintro ⟨h2, h⟩
    refine ⟨fun h0 => ?_, ?_, h2.symm⟩
    · have : x = 0 := congrArg Prod.fst h0
      subst this
      rcases h with h | h <;> exact lt_irrefl _ h.1
    · rcases h with ⟨h, h1⟩ | ⟨h, h1⟩
      · rw [abs_of_pos h, show f * x / (q * x) = f / q by field_simp]
        linarith
      · have := h.ne
        rw [abs_of_neg h, show f * x / (q * -x) = -(f / q) by field_simp, Real.arctan_neg]
        linarith

/-- Images on the other axis. -/
theorem frame_axis' (b1 b2 y : ℝ) :
    (0, y) ∈ frameImages q f A b1 b2 ↔
      b1 = 0 ∧ (0 < y ∧ y = b2 + A * artanh f ∨ y < 0 ∧ y = b2 - A * artanh f) := by
  simp only [frameImages, Set.mem_ofPred_eq, sqrt_axis', mul_zero, zero_div, Real.arctan_zero, sub_zero]
  constructor
  · rintro ⟨h0, h1, h2⟩
    have hy : y ≠ 0 := fun h => h0 (by rw [h]; rfl)
    refine ⟨h1.symm, ?_⟩
    rcases lt_or_gt_of_ne hy with h | h
    · right
      refine ⟨h, ?_⟩
      rw [abs_of_neg h, show f * y / -y = -f by field_simp, artanh_odd] at h2
      linarith
    · left
      refine ⟨h, ?_⟩
      rw [abs_of_pos h, show f * y / y = f by field_simp] at h2
      linarith
  · rintro ⟨h1, h⟩
    refine ⟨fun h0 => ?_, h1.symm, ?_⟩
    · have : y = 0 := congrArg Prod.snd h0
      subst this
      rcases h with h | h <;> exact lt_irrefl _ h.1
    · rcases h with ⟨h, h2⟩ | ⟨h, h2⟩
      · rw [abs_of_pos h, show f * y / y = f by field_simp]
        linarith
      · have := h.ne
        rw [abs_of_neg h, show f * y / -y = -f by field_simp, artanh_odd]
        linarith

open Classical in
theorem frame_axis_encard (hq : 0 < q) (b1 b2 : ℝ) :
    (frameImages q f A b1 b2 ∩ {u | u.2 = 0}).encard ≤ (if b2 = 0 then 2 else 0) := by
  have hsub : frameImages q f A b1 b2 ∩ {u | u.2 = 0} ⊆
      {u | b2 = 0 ∧ u ∈ ({(b1 + A * arctan (f / q), 0), (b1 - A * arctan (f / q), 0)} : Set (ℝ × ℝ))} := by
    rintro ⟨x, y⟩ ⟨hu, hy⟩
    obtain rfl : y = 0 := hy
    obtain ⟨h2, h⟩ := (frame_axis hq b1 b2 x).1 hu
    refine ⟨h2, ?_⟩
    rcases h with ⟨-, h⟩ | ⟨-, h⟩
    · left; rw [h]
    · right; rw [h]; rfl
  split_ifs with h
  · exact (encard_le_encard (hsub.trans fun u hu => hu.2)).trans (encard_insert_le _ _ |>.trans (by rw [encard_singleton, one_add_one_eq_two]))
  · rw [nonpos_iff_eq_zero, encard_eq_zero, eq_empty_iff_forall_notMem]
    exact fun u hu => h (hsub hu).1

open Classical in
theorem frame_axis_encard' (b1 b2 : ℝ) :
    (frameImages q f A b1 b2 ∩ {u | u.1 = 0}).encard ≤ (if b1 = 0 then 2 else 0) := by
  have hsub : frameImages q f A b1 b2 ∩ {u | u.1 = 0} ⊆
      {u | b1 = 0 ∧ u ∈ ({(0, b2 + A * artanh f), (0, b2 - A * artanh f)} : Set (ℝ × ℝ))} := by
    rintro ⟨x, y⟩ ⟨hu, hx⟩
    obtain rfl : x = 0 := hx
    obtain ⟨h2, h⟩ := (frame_axis' b1 b2 y).1 hu
    refine ⟨h2, ?_⟩
    rcases h with ⟨-, h⟩ | ⟨-, h⟩
    · left; rw [h]
    · right; rw [h]; rfl
  split_ifs with h
  · exact (encard_le_encard (hsub.trans fun u hu => hu.2)).trans (encard_insert_le _ _ |>.trans (by rw [encard_singleton, one_add_one_eq_two]))
  · rw [nonpos_iff_eq_zero, encard_eq_zero, eq_empty_iff_forall_notMem]
    exact fun u hu => h (hsub hu).1

open Classical in
theorem count_four (b1 b2 : ℝ) :
    ((if 0 < 1 * b1 then 1 else 0) + (if 1 * b2 < 0 then 1 else 0) + ((if 0 < 1 * b1 then 1 else 0) + (if -1 * b2 < 0 then 1 else 0))
      + ((if 0 < -1 * b1 then 1 else 0) + (if 1 * b2 < 0 then 1 else 0))
      + ((if 0 < -1 * b1 then 1 else 0) + (if -1 * b2 < 0 then 1 else 0))
      + (if b2 = 0 then 2 else 0) + (if b1 = 0 then 2 else 0) : ℕ∞) ≤ 4 := by
  have h1 : ∀ b : ℝ, b = 0 ∧ ¬ (0 < 1 * b) ∧ ¬ (1 * b < 0) ∧ ¬ (0 < -1 * b) ∧ ¬ (-1 * b < 0) ∨
      b ≠ 0 ∧ 0 < 1 * b ∧ ¬ (1 * b < 0) ∧ ¬ (0 < -1 * b) ∧ -1 * b < 0 ∨
      b ≠ 0 ∧ ¬ (0 < 1 * b) ∧ 1 * b < 0 ∧ 0 < -1 * b ∧ ¬ (-1 * b < 0) := by
    intro b
    rcases lt_trichotomy b 0 with h | h | h
    · right; right
      exact ⟨h.ne, by linarith, by linarith, by linarith, by linarith⟩
    · left
      exact ⟨h, by linarith, by linarith, by linarith, by linarith⟩
    · right; left
      exact ⟨h.ne', by linarith, by linarith, by linarith, by linarith⟩
  rcases h1 b1 with ⟨a, b, -, d, -⟩ | ⟨a, b, -, d, -⟩ | ⟨a, b, -, d, -⟩ <;>
    rcases h1 b2 with ⟨a', -, c', -, e'⟩ | ⟨a', -, c', -, e'⟩ | ⟨a', -, c', -, e'⟩ <;>
    simp only [a, b, d, a', c', e', if_true, if_false] <;> norm_num

theorem frame_at_most_four (hq : 0 < q) (hf : 0 < f) (hqf : f ^ 2 = 1 - q ^ 2) (hA : 0 < A) (b1 b2 : ℝ) :
    (frameImages q f A b1 b2).encard ≤ 4 := by
  classical
  set S := frameImages q f A b1 b2 with hS
  have hcov : S ⊆ (S ∩ {u | 0 < (1 : ℝ) * u.1 ∧ 0 < (1 : ℝ) * u.2}) ∪ (S ∩ {u | 0 < (1 : ℝ) * u.1 ∧ 0 < (-1 : ℝ) * u.2})
      ∪ (S ∩ {u | 0 < (-1 : ℝ) * u.1 ∧ 0 < (1 : ℝ) * u.2}) ∪ (S ∩ {u | 0 < (-1 : ℝ) * u.1 ∧ 0 < (-1 : ℝ) * u.2})
      ∪ (S ∩ {u | u.2 = 0}) ∪ (S ∩ {u | u.1 = 0}) := by
    intro u hu
    simp only [Set.mem_union, Set.mem_inter_iff, Set.mem_ofPred_eq, hu, true_and, one_mul, neg_mul, neg_pos]
    rcases lt_trichotomy u.1 0 with h1 | h1 | h1 <;> rcases lt_trichotomy u.2 0 with h2 | h2 | h2 <;> simp [h1, h2]
  have h1 := frame_quadrant hq hf hqf hA b1 b2 (σ := 1) (τ := 1) (Or.inl rfl) (Or.inl rfl)
  have h2 := frame_quadrant hq hf hqf hA b1 b2 (σ := 1) (τ := -1) (Or.inl rfl) (Or.inr rfl)
  have h3 := frame_quadrant hq hf hqf hA b1 b2 (σ := -1) (τ := 1) (Or.inr rfl) (Or.inl rfl)
  have h4 := frame_quadrant hq hf hqf hA b1 b2 (σ := -1) (τ := -1) (Or.inr rfl) (Or.inr rfl)
  have h5 := frame_axis_encard (f := f) (A := A) hq b1 b2
  have h6 := frame_axis_encard' (q := q) (f := f) (A := A) b1 b2
  refine (encard_le_encard hcov).trans ((encard_union_le _ _).trans ((add_le_add ((encard_union_le _ _).trans (add_le_add
    ((encard_union_le _ _).trans (add_le_add ((encard_union_le _ _).trans (add_le_add ((encard_union_le _ _).trans
      (add_le_add h1 h2)) h3)) h4)) h5)) h6).trans ?_))
  exact count_four b1 b2

theorem sieQ_range {q : ℝ} (hq : 0 < q) (hq1 : q ≤ 1) : 0 < sieQ q ∧ sieQ q < 1 := by
  unfold sieQ
  split_ifs with h
  · subst h; norm_num
  · exact ⟨hq, lt_of_le_of_ne hq1 h⟩

theorem sie_frame_constants {q Rein : ℝ} (hq : 0 < q) (hq1 : q ≤ 1) (hR : 0 < Rein) :
    0 < √(1 - sieQ q ^ 2) ∧ √(1 - sieQ q ^ 2) ^ 2 = 1 - sieQ q ^ 2 ∧ 0 < Rein * √(sieQ q) / √(1 - sieQ q ^ 2) := by
  obtain ⟨h0, h1⟩ := sieQ_range hq hq1
  have hp : 0 < 1 - sieQ q ^ 2 := by nlinarith
  refine ⟨sqrt_pos.2 hp, sq_sqrt hp.le, div_pos (mul_pos hR (sqrt_pos.2 h0)) (sqrt_pos.2 hp)⟩

/-- Whatever the parameters and wherever the source, a SIE shows it at most four times. -/
theorem C96_at_most_four (x0 y0 q phi Rein : ℝ) (hq : 0 < q) (hq1 : q ≤ 1) (hR : 0 < Rein) (b : ℝ × ℝ) :
    (sieImages x0 y0 q phi Rein b).encard ≤ 4 := by
  obtain ⟨hf, hqf, hA⟩ := sie_frame_constants hq hq1 hR
  rw [sieImages_eq, (derotate_injective x0 y0 phi).injOn.encard_image]
  exact frame_at_most_four (sieQ_range hq hq1).1 hf hqf hA _ _

/-- A source off the axes of the lens has exactly one image in its own quadrant. -/
theorem C96_own_quadrant (x0 y0 q phi Rein : ℝ) (hq : 0 < q) (hq1 : q ≤ 1) (hR : 0 < Rein) (b : ℝ × ℝ) :
    let fr := fun p : ℝ × ℝ => ((p.1 - x0) * cos phi + (p.2 - y0) * sin phi, (p.2 - y0) * cos phi - (p.1 - x0) * sin phi)
    (fr b).1 ≠ 0 → (fr b).2 ≠ 0 →
    ∃! p, p ∈ sieImages x0 y0 q phi Rein b ∧ 0 < (fr b).1 * (fr p).1 ∧ 0 < (fr b).2 * (fr p).2 := by
  intro fr hb1 hb2
  obtain ⟨hf, hqf, hA⟩ := sie_frame_constants hq hq1 hR
  have hQ := (sieQ_range hq hq1).1
  have hfr : ∀ p : ℝ × ℝ, translateRotate p.1 p.2 x0 y0 (some phi) = fr p := fun p => rfl
  have hmem := fun p => mem_sieImages x0 y0 q phi Rein b p
  simp only [hfr] at hmem
  have hpull : ∀ u, fr (x0 + (derotate u.1 u.2 (some phi)).1, y0 + (derotate u.1 u.2 (some phi)).2) = u :=
    fun u => translateRotate_derotate x0 y0 phi u
  have hinj : Function.Injective fr := fun p p' h => by
    have e1 := derotate_translateRotate x0 y0 phi p
    have e2 := derotate_translateRotate x0 y0 phi p'
    simp only [hfr, h] at e1 e2
    exact e1.symm.trans e2
  generalize √(1 - sieQ q ^ 2) = f at *
  generalize Rein * √(sieQ q) / f = A at *
  generalize sieQ q = Q at *
  obtain ⟨σ, hσ, hσ1⟩ : ∃ σ : ℝ, (σ = 1 ∨ σ = -1) ∧ 0 < σ * (fr b).1 := by
    rcases lt_or_gt_of_ne hb1 with h | h
    · exact ⟨-1, Or.inr rfl, by linarith⟩
    · exact ⟨1, Or.inl rfl, by linarith⟩
  obtain ⟨τ, hτ, hτ1⟩ : ∃ τ : ℝ, (τ = 1 ∨ τ = -1) ∧ 0 < τ * (fr b).2 := by
    rcases lt_or_gt_of_ne hb2 with h | h
    · exact ⟨-1, Or.inr rfl, by linarith⟩
    · exact ⟨1, Or.inl rfl, by linarith⟩
  have hσσ : σ * σ = 1 := by rcases hσ with rfl | rfl <;> norm_num
  have hττ : τ * τ = 1 := by rcases hτ with rfl | rfl <;> norm_num
  have hside : ∀ {σ β X : ℝ}, σ * σ = 1 → 0 < σ * β → (0 < β * X ↔ 0 < σ * X) := by
    intro σ β X h1 h2
    have : β * X = σ * β * (σ * X) := by linear_combination -(β * X) * h1
    rw [this, mul_pos_iff_of_pos_left h2]
  simp only [hside hσσ hσ1, hside hττ hτ1, hmem]
  obtain ⟨T, hT, hT0⟩ := rayH_exists (q := Q) (f := f) (A := A) hQ hf hqf hA hσ1 hτ1
  set X := σ * (fr b).1 + A * rayX Q f T with hX
  have hX0 : 0 < X := by
    have : 0 ≤ rayX Q f T := Real.arctan_nonneg.2 (div_nonneg hf.le (sqrt_nonneg _))
    positivity
  have hu : (σ * X, τ * (T * X)) ∈ frameImages Q f A (fr b).1 (fr b).2 := by
    rw [frame_ray hQ hσ hτ hX0]
    refine ⟨hX, ?_⟩
    unfold rayH at hT0
    linarith
  have hq1 := frame_quadrant hQ hf hqf hA (fr b).1 (fr b).2 hσ hτ
  rw [if_pos hσ1, if_neg (not_lt.2 hτ1.le), add_zero, encard_le_one_iff] at hq1
  refine ⟨(x0 + (derotate (σ * X) (τ * (T * X)) (some phi)).1, y0 + (derotate (σ * X) (τ * (T * X)) (some phi)).2), ?_, ?_⟩
  · have e := hpull (σ * X, τ * (T * X))
    simp only at e
    simp only [e]
    refine ⟨hu, ?_, ?_⟩
    · rw [← mul_assoc, hσσ, one_mul]; exact hX0
    · rw [← mul_assoc, hττ, one_mul]; positivity
  · rintro p ⟨hp, h1, h2⟩
    apply hinj
    have e := hpull (σ * X, τ * (T * X))
    simp only at e
    rw [e]
    refine hq1 _ _ ⟨hp, h1, h2⟩ ⟨hu, ?_, ?_⟩
    · simp only [← mul_assoc, hσσ, one_mul]; exact hX0
    · simp only [← mul_assoc, hττ, one_mul]; positivity

/-- A source behind the centre: a cross of exactly four images, on the axes of the lens. -/
theorem C96_cross (x0 y0 q phi Rein : ℝ) (hq : 0 < q) (hq1 : q ≤ 1) (hR : 0 < Rein) :
    let Q := sieQ q
    let f := √(1 - Q ^ 2)
    let a := Rein * √Q / f * arctan (f / Q)
    let c := Rein * √Q / f * artanh f
    sieImages x0 y0 q phi Rein (x0, y0) =
      {(x0 + a * cos phi, y0 + a * sin phi), (x0 - a * cos phi, y0 - a * sin phi),
        (x0 - c * sin phi, y0 + c * cos phi), (x0 + c * sin phi, y0 - c * cos phi)} ∧
    (sieImages x0 y0 q phi Rein (x0, y0)).encard = 4 := by
  intro Q f a c
  obtain ⟨hf, hqf, hA⟩ := sie_frame_constants hq hq1 hR
  have hQ := sieQ_range hq hq1
  change 0 < f at hf
  change f ^ 2 = 1 - Q ^ 2 at hqf
  change 0 < Rein * √Q / f at hA
  change 0 < Q ∧ Q < 1 at hQ
  have hf1 : f < 1 := by nlinarith [hQ.1]
  have ha : 0 < a := mul_pos hA (Real.arctan_pos.2 (div_pos hf hQ.1))
  have hc : 0 < c := mul_pos hA (artanh_pos ⟨hf, hf1⟩)
  have hfr : frameImages Q f (Rein * √Q / f) 0 0 = {(a, 0), (-a, 0), (0, c), (0, -c)} := by
    ext ⟨u, v⟩
    simp only [Set.mem_insert_iff, Set.mem_singleton_iff, Prod.mk.injEq]
    constructor
    · intro hu
      by_cases hv : v = 0
      · subst hv
        obtain ⟨-, h⟩ := (frame_axis hQ.1 0 0 u).1 hu
        rcases h with ⟨-, h⟩ | ⟨-, h⟩
        · left; exact ⟨by rw [h, zero_add], rfl⟩
        · right; left; exact ⟨by rw [h, zero_sub], rfl⟩
      · by_cases hu0 : u = 0
        · subst hu0
          obtain ⟨-, h⟩ := (frame_axis' 0 0 v).1 hu
          rcases h with ⟨-, h⟩ | ⟨-, h⟩
          · right; right; left; exact ⟨rfl, by rw [h, zero_add]⟩
          · right; right; right; exact ⟨rfl, by rw [h, zero_sub]⟩
        · exfalso
          have pick : ∀ w : ℝ, w ≠ 0 → ∃ σ : ℝ, (σ = 1 ∨ σ = -1) ∧ 0 < σ * w := by
            intro w hw
            rcases lt_or_gt_of_ne hw with h | h
            · exact ⟨-1, Or.inr rfl, by linarith⟩
            · exact ⟨1, Or.inl rfl, by linarith⟩
          obtain ⟨σ, hσ, h1⟩ := pick u hu0
          obtain ⟨τ, hτ, h2⟩ := pick v hv
          have := frame_quadrant hQ.1 hf hqf hA 0 0 hσ hτ
          rw [mul_zero, mul_zero, if_neg (lt_irrefl _), add_zero, nonpos_iff_eq_zero, encard_eq_zero] at this
          exact this.subset ⟨hu, h1, h2⟩
    · rintro (⟨rfl, rfl⟩ | ⟨rfl, rfl⟩ | ⟨rfl, rfl⟩ | ⟨rfl, rfl⟩)
      · exact (frame_axis hQ.1 0 0 _).2 ⟨rfl, Or.inl ⟨ha, by rw [zero_add]⟩⟩
      · exact (frame_axis hQ.1 0 0 _).2 ⟨rfl, Or.inr ⟨neg_neg_of_pos ha, by rw [zero_sub]⟩⟩
      · exact (frame_axis' 0 0 _).2 ⟨rfl, Or.inl ⟨hc, by rw [zero_add]⟩⟩
      · exact (frame_axis' 0 0 _).2 ⟨rfl, Or.inr ⟨neg_neg_of_pos hc, by rw [zero_sub]⟩⟩
  have e := sieImages_eq x0 y0 q phi Rein (x0, y0)
  have e0 : translateRotate x0 y0 x0 y0 (some phi) = (0, 0) := by simp [translateRotate]
  simp only [e0] at e
  change _ = _ '' frameImages Q f (Rein * √Q / f) 0 0 at e
  rw [hfr] at e
  constructor
  · rw [e]
    simp only [Set.image_insert_eq, Set.image_singleton, derotate]
    simp only [zero_mul, sub_zero, add_zero, zero_sub, zero_add, neg_mul, neg_neg, ← sub_eq_add_neg]
  · rw [e, (derotate_injective x0 y0 phi).injOn.encard_image]
    have n1 : (a, (0 : ℝ)) ∉ ({(-a, 0), (0, c), (0, -c)} : Set (ℝ × ℝ)) := by
      simp only [Set.mem_insert_iff, Set.mem_singleton_iff, Prod.mk.injEq, not_or, not_and]
      exact ⟨fun h => by linarith, fun h => absurd h ha.ne', fun h => absurd h ha.ne'⟩
    have n2 : (-a, (0 : ℝ)) ∉ ({(0, c), (0, -c)} : Set (ℝ × ℝ)) := by
      simp only [Set.mem_insert_iff, Set.mem_singleton_iff, Prod.mk.injEq, not_or, not_and]
      exact ⟨fun h => by linarith, fun h => by linarith⟩
    have n3 : ((0 : ℝ), c) ∉ ({(0, -c)} : Set (ℝ × ℝ)) := by
      simp only [Set.mem_singleton_iff, Prod.mk.injEq, not_and]
      exact fun _ h => by linarith
    rw [encard_insert_of_notMem n1, encard_insert_of_notMem n2, encard_insert_of_notMem n3, encard_singleton]
    norm_num

/-- A circular SIE should show a source behind its centre as a ring, as the SIS does. -/
def C96_ring_statement : Prop :=
  ∀ x0 y0 phi Rein : ℝ, 0 < Rein → ∀ p : ℝ × ℝ, (p.1 - x0) ^ 2 + (p.2 - y0) ^ 2 = Rein ^ 2 →
    p ∈ sieImages x0 y0 1 phi Rein (x0, y0)

/-- It shows four images. -/
theorem C96_ring_fails : ¬ C96_ring_statement := by
  intro h
  have h4 := C96_at_most_four 0 0 1 0 1 one_pos le_rfl one_pos (0, 0)
  have hinj : Set.InjOn (fun t : ℝ => (cos t, sin t)) (Icc 0 1) := by
    intro a ha b hb hab
    simp only [Prod.mk.injEq] at hab
    exact Real.injOn_cos ⟨ha.1, ha.2.trans (by linarith [Real.two_le_pi])⟩ ⟨hb.1, hb.2.trans (by linarith [Real.two_le_pi])⟩ hab.1
  have hsub : (fun t : ℝ => (cos t, sin t)) '' Icc 0 1 ⊆ sieImages 0 0 1 0 1 (0, 0) := by
    rintro _ ⟨t, -, rfl⟩
    refine h 0 0 0 1 one_pos _ ?_
    simp only [sub_zero, one_pow]
    exact cos_sq_add_sin_sq t
  have hinf : (sieImages 0 0 1 0 1 (0, 0)).Infinite :=
    ((Set.Icc_infinite one_pos).image hinj).mono hsub
  rw [hinf.encard_eq] at h4
  exact absurd h4 (by simp)

/-- The SIS does show the ring. -/
theorem C96_ring_sis (x0 y0 Rein : ℝ) (hR : 0 < Rein) (p : ℝ × ℝ) (hp : (p.1 - x0) ^ 2 + (p.2 - y0) ^ 2 = Rein ^ 2) :
    (⟨0, sisDeflection x0 y0 Rein 0, sisPotential x0 y0 Rein 0⟩ : ThinLensFn ℝ).raytrace p.1 p.2 = (x0, y0) := by
  simp only [ThinLensFn.raytrace, sisDeflection, translateRotate, hp, Real.sqrt_sq hR.le, add_zero]
  rw [mul_div_cancel_left₀ _ hR.ne', mul_div_cancel_left₀ _ hR.ne']
  simp

/-! ### Examples -/

/-- An ellipsoid of axis ratio 0.6 on the sky at an angle: never five images. -/
example (b p1 p2 p3 p4 p5 : ℝ × ℝ)
    (h : ∀ p ∈ [p1, p2, p3, p4, p5], p ∈ sieImages 0.1 0.2 0.6 0.7 1.5 b) : ¬ [p1, p2, p3, p4, p5].Nodup := by
  intro hn
  classical
  have h4 := C96_at_most_four 0.1 0.2 0.6 0.7 1.5 (by norm_num) (by norm_num) (by norm_num) b
  have hsub : (([p1, p2, p3, p4, p5].toFinset : Finset (ℝ × ℝ)) : Set (ℝ × ℝ)) ⊆ sieImages 0.1 0.2 0.6 0.7 1.5 b := by
    intro p hp
    exact h p (by simpa using hp)
  have := (encard_le_encard hsub).trans h4
  rw [encard_coe_eq_coe_finsetCard, List.toFinset_card_of_nodup hn] at this
  norm_num at this

/-- The cross of an ellipsoid with axis ratio 0.6 (`f` is then 0.8) at the origin. -/
example : sieImages 0 0 0.6 0 1 (0, 0) =
    {(√0.6 / 0.8 * arctan (4 / 3), 0), (-(√0.6 / 0.8 * arctan (4 / 3)), 0),
      (0, √0.6 / 0.8 * artanh 0.8), (0, -(√0.6 / 0.8 * artanh 0.8))} := by
  have h := (C96_cross 0 0 0.6 0 1 (by norm_num) (by norm_num) one_pos).1
  have hq : sieQ 0.6 = 0.6 := if_neg (by norm_num)
  have hf : √(1 - (0.6 : ℝ) ^ 2) = 0.8 := by
    rw [show (1 : ℝ) - 0.6 ^ 2 = 0.8 ^ 2 by norm_num, sqrt_sq (by norm_num)]
  simp only [hq, hf, one_mul, cos_zero, sin_zero, mul_one, mul_zero, add_zero, zero_add, sub_zero, zero_sub] at h
  rw [h, show (0.8 : ℝ) / 0.6 = 4 / 3 by norm_num]

end Caustics

import Verif.Props.Jacobian
import Verif.Lemmas.Lens
import Verif.Model.Lenses
import Mathlib.Analysis.Calculus.MeanValue
import Mathlib.Analysis.Calculus.Deriv.MeanValue

/-! C103: how accurate the finite difference Jacobian is. -/

namespace Caustics

open Filter Topology Set

/-! ### One axis -/

theorem slope_mean {f f' : ℝ → ℝ} {a b : ℝ} (hab : a < b) (hf : ∀ t ∈ Icc a b, HasDerivAt f (f' t) t) :
    ∃ c ∈ Ioo a b, (f b - f a) / (b - a) = f' c := by
  obtain ⟨c, hc, h⟩ := exists_hasDerivAt_eq_slope f f' hab
    (fun t ht => (hf t ht).continuousAt.continuousWithinAt) (fun t ht => hf t (Ioo_subset_Icc_self ht))
  exact ⟨c, hc, h.symm⟩

/-- Every difference quotient is a slope within one sample. -/
theorem gradient1_mean {f f' : ℝ → ℝ} {a h : ℝ} (hh : 0 < h) {n : ℕ} (hn : 2 ≤ n) {i : ℕ} (hi : i < n)
    (hf : ∀ t, |t - (a + i * h)| ≤ h → HasDerivAt f (f' t) t) :
    ∃ c, |c - (a + i * h)| ≤ h ∧ gradient1 (fun k => f (a + k * h)) n h i = f' c := by
  have main : ∀ p q : ℕ, p < q → p ≤ i → i ≤ q → i ≤ p + 1 → q ≤ i + 1 →
      ∃ c, |c - (a + i * h)| ≤ h ∧ (f (a + q * h) - f (a + p * h)) / (((q : ℝ) - p) * h) = f' c := by
    intro p q hpq hpi hiq h1 h2
    have hpq' : (p : ℝ) < q := Nat.cast_lt.2 hpq
    have e1 : (i : ℝ) ≤ p + 1 := by exact_mod_cast h1
    have e2 : (q : ℝ) ≤ i + 1 := by exact_mod_cast h2
    have hin : ∀ t ∈ Icc (a + p * h) (a + q * h), |t - (a + i * h)| ≤ h := by
      intro t ht
      obtain ⟨t1, t2⟩ := ht
      exact abs_le.2 ⟨by nlinarith, by nlinarith⟩
    obtain ⟨c, hc, he⟩ := slope_mean (f := f) (f' := f') (a := a + p * h) (b := a + q * h)
      (by nlinarith) (fun t ht => hf t (hin t ht))
    refine ⟨c, hin c (Ioo_subset_Icc_self hc), ?_⟩
    rw [← he]
    congr 1
    ring
  unfold gradient1
  split
  · rename_i h0
    obtain ⟨c, h2, h3⟩ := main 0 1 (by omega) (by omega) (by omega) (by omega) (by omega)
    refine ⟨c, h2, ?_⟩
    rw [← h3]
    norm_num
  · split
    · rename_i h0 h1
      obtain ⟨c, g2, g3⟩ := main (n - 2) (n - 1) (by omega) (by omega) (by omega) (by omega) (by omega)
      refine ⟨c, g2, ?_⟩
      rw [← g3]
      congr 1
      rw [Nat.cast_sub (by omega), Nat.cast_sub (by omega)]
      push_cast
      ring
    · obtain ⟨k, rfl⟩ : ∃ k, i = k + 1 := ⟨i - 1, by omega⟩
      obtain ⟨c, g2, g3⟩ := main k (k + 2) (by omega) (by omega) (by omega) (by omega) (by omega)
      refine ⟨c, g2, ?_⟩
      rw [← g3]
      simp only [show k + 1 - 1 = k from rfl, show k + 1 + 1 = k + 2 from rfl]
      congr 1
      push_cast
      ring

/-- The central difference of a function whose second derivative is Lipschitz. -/
theorem central_error {f f' f'' : ℝ → ℝ} {x h M : ℝ} (hh : 0 < h)
    (hf : ∀ t ∈ Icc (x - h) (x + h), HasDerivAt f (f' t) t)
    (hf' : ∀ t ∈ Icc (x - h) (x + h), HasDerivAt f' (f'' t) t)
    (hM : ∀ s ∈ Icc (x - h) (x + h), ∀ t ∈ Icc (x - h) (x + h), |f'' s - f'' t| ≤ M * |s - t|) :
    |(f (x + h) - f (x - h)) / (2 * h) - f' x| ≤ M * h ^ 2 / 6 := by
  -- g t = f' (x+t) + f' (x-t) - 2 f' x
  have hin : ∀ t ∈ Icc 0 h, x + t ∈ Icc (x - h) (x + h) ∧ x - t ∈ Icc (x - h) (x + h) := by
    intro t ht
    exact ⟨⟨by linarith [ht.1], by linarith [ht.2]⟩, by linarith [ht.2], by linarith [ht.1]⟩
  have hplus : ∀ {u u' : ℝ → ℝ}, (∀ t ∈ Icc (x - h) (x + h), HasDerivAt u (u' t) t) → ∀ t ∈ Icc 0 h,
      HasDerivAt (fun t => u (x + t)) (u' (x + t)) t ∧ HasDerivAt (fun t => u (x - t)) (-u' (x - t)) t := by
    intro u u' hu t ht
    refine ⟨(hu _ (hin t ht).1).comp_const_add x t, ?_⟩
    simpa using (hu _ (hin t ht).2).comp_const_sub x t
  have step1 : ∀ t ∈ Icc 0 h, |f' (x + t) + f' (x - t) - 2 * f' x| ≤ M * t ^ 2 := by
    have hd : ∀ t ∈ Icc 0 h, HasDerivAt (fun t => f' (x + t) + f' (x - t) - 2 * f' x)
        (f'' (x + t) - f'' (x - t)) t := by
      intro t ht
      have := ((hplus hf' t ht).1.add (hplus hf' t ht).2).sub_const (2 * f' x)
      simpa [sub_eq_add_neg] using this
    have := image_norm_le_of_norm_deriv_right_le_deriv_boundary
      (f := fun t => f' (x + t) + f' (x - t) - 2 * f' x) (f' := fun t => f'' (x + t) - f'' (x - t))
      (a := 0) (b := h) (B := fun t => M * t ^ 2) (B' := fun t => 2 * M * t)
      (fun t ht => (hd t ht).continuousAt.continuousWithinAt)
      (fun t ht => (hd t (Ico_subset_Icc_self ht)).hasDerivWithinAt)
      (by simp; ring_nf) (fun t => by
        have := (hasDerivAt_pow 2 t).const_mul M
        simpa [mul_comm, mul_left_comm, mul_assoc] using this)
      (fun t ht => by
        have h1 := hin t (Ico_subset_Icc_self ht)
        have := hM _ h1.1 _ h1.2
        rw [Real.norm_eq_abs]
        refine this.trans (le_of_eq ?_)
        rw [show x + t - (x - t) = 2 * t by ring, abs_of_nonneg (by linarith [ht.1])]
        ring)
    intro t ht
    simpa using this ht
  have hd : ∀ t ∈ Icc 0 h, HasDerivAt (fun t => f (x + t) - f (x - t) - 2 * f' x * t)
      (f' (x + t) + f' (x - t) - 2 * f' x) t := by
    intro t ht
    exact (((hplus hf t ht).1.sub (hplus hf t ht).2).sub ((hasDerivAt_id t).const_mul (2 * f' x))).congr_deriv
      (by ring)
  have := image_norm_le_of_norm_deriv_right_le_deriv_boundary
    (f := fun t => f (x + t) - f (x - t) - 2 * f' x * t) (f' := fun t => f' (x + t) + f' (x - t) - 2 * f' x)
    (a := 0) (b := h) (B := fun t => M / 3 * t ^ 3) (B' := fun t => M * t ^ 2)
    (fun t ht => (hd t ht).continuousAt.continuousWithinAt)
    (fun t ht => (hd t (Ico_subset_Icc_self ht)).hasDerivWithinAt)
    (by simp) (fun t => by
      exact ((hasDerivAt_pow 3 t).const_mul (M / 3)).congr_deriv (by push_cast; ring))
    (fun t ht => step1 t (Ico_subset_Icc_self ht)) (right_mem_Icc.2 hh.le)
  rw [Real.norm_eq_abs] at this
  rw [show (f (x + h) - f (x - h)) / (2 * h) - f' x = (f (x + h) - f (x - h) - 2 * f' x * h) / (2 * h) by
    field_simp, abs_div, abs_of_pos (by linarith : 0 < 2 * h), div_le_iff₀ (by linarith)]
  refine this.trans (le_of_eq ?_)
  ring

theorem gradient1_interior {f f' f'' : ℝ → ℝ} {a h M : ℝ} (hh : 0 < h) {n : ℕ} {i : ℕ} (h0 : 0 < i) (h1 : i + 1 < n)
    (hf : ∀ t, |t - (a + i * h)| ≤ h → HasDerivAt f (f' t) t)
    (hf' : ∀ t, |t - (a + i * h)| ≤ h → HasDerivAt f' (f'' t) t)
    (hM : ∀ s t, |s - (a + i * h)| ≤ h → |t - (a + i * h)| ≤ h → |f'' s - f'' t| ≤ M * |s - t|) :
    |gradient1 (fun k => f (a + k * h)) n h i - f' (a + i * h)| ≤ M * h ^ 2 / 6 := by
  obtain ⟨k, rfl⟩ : ∃ k, i = k + 1 := ⟨i - 1, by omega⟩
  have hsub : ∀ t ∈ Icc (a + (k + 1 : ℕ) * h - h) (a + (k + 1 : ℕ) * h + h), |t - (a + (k + 1 : ℕ) * h)| ≤ h := by
    intro t ht
    exact abs_le.2 ⟨by linarith [ht.1], by linarith [ht.2]⟩
  have := central_error hh (fun t ht => hf t (hsub t ht)) (fun t ht => hf' t (hsub t ht))
    (fun s hs t ht => hM s t (hsub s hs) (hsub t ht))
  unfold gradient1
  rw [if_neg (by omega), if_neg (by omega)]
  have e1 : a + ((k + 1 + 1 : ℕ) : ℝ) * h = a + (k + 1 : ℕ) * h + h := by push_cast; ring
  have e2 : a + ((k : ℕ) : ℝ) * h = a + (k + 1 : ℕ) * h - h := by push_cast; ring
  simp only [Nat.add_sub_cancel]
  rw [e1, e2]
  exact this

/-! ### The Jacobian on a pixel grid -/

/-- Position of pixel `k` of `n` pixels of side `ps` centred on `x0`. -/
noncomputable def pixelAt (x0 ps : ℝ) (n k : ℕ) : ℝ := x0 + ((k : ℝ) - ((n : ℝ) - 1) / 2) * ps

/-- What `jacobian_lens_equation(..., method="finitediff")` differentiates: the deflection `v` on the pixel grid
`meshgrid(ps, nx, ny)` moved to `(x0, y0)`; the Jacobian of the deflection found in pixel `(i, j)`. -/
noncomputable def gridJac (v : ℝ → ℝ → ℝ × ℝ) (x0 y0 ps : ℝ) (nx ny i j : ℕ) : Option (M22 ℝ) :=
  let X := (meshgrid ps nx (some ny)).1
  let Y := (meshgrid ps nx (some ny)).2
  jacFiniteDiff (fun i j => (v (entry X i j + x0) (entry Y i j + y0)).1)
    (fun i j => (v (entry X i j + x0) (entry Y i j + y0)).2) ny nx ps i j

/-- `v` has the Jacobian `J` within `h` of `(x, y)` along the two axes. -/
structure JacNear (v : ℝ → ℝ → ℝ × ℝ) (J : ℝ → ℝ → M22 ℝ) (h x y : ℝ) : Prop where
  row : ∀ t, |t - x| ≤ h → HasJac v (J t y).a00 (J t y).a01 (J t y).a10 (J t y).a11 t y
  col : ∀ t, |t - y| ≤ h → HasJac v (J x t).a00 (J x t).a01 (J x t).a10 (J x t).a11 x t

theorem HasGrad.along_x {u : ℝ → ℝ → ℝ} {a b x y : ℝ} (h : HasGrad u a b x y) :
    HasDerivAt (fun t => u t y) a x := by
  have h1 : HasDerivAt (fun t : ℝ => (t, y)) (1, 0) x := (hasDerivAt_id x).prodMk (hasDerivAt_const x y)
  have := HasFDerivAt.comp_hasDerivAt (f := fun t : ℝ => (t, y)) x (show HasFDerivAt _ _ (x, y) from h) h1
  exact this.congr_deriv (by simp)

theorem HasGrad.along_y {u : ℝ → ℝ → ℝ} {a b x y : ℝ} (h : HasGrad u a b x y) :
    HasDerivAt (fun t => u x t) b y := by
  have h1 : HasDerivAt (fun t : ℝ => (x, t)) (0, 1) y := (hasDerivAt_const y x).prodMk (hasDerivAt_id y)
  have := HasFDerivAt.comp_hasDerivAt (f := fun t : ℝ => (x, t)) y (show HasFDerivAt _ _ (x, y) from h) h1
  exact this.congr_deriv (by simp)

theorem pixelAt_eq (x0 ps : ℝ) (n k : ℕ) : pixelAt x0 ps n k = pixelAt x0 ps n 0 + k * ps := by
  simp only [pixelAt]; push_cast; ring

theorem gradient1_congr {f g : ℕ → ℝ} {n : ℕ} (hn : 2 ≤ n) (h : ∀ k, k < n → f k = g k) (ps : ℝ) {i : ℕ}
    (hi : i < n) : gradient1 f n ps i = gradient1 g n ps i := by
  unfold gradient1
  split
  · rw [h 0 (by omega), h 1 (by omega)]
  · split
    · rw [h (n - 1) (by omega), h (n - 2) (by omega)]
    · rw [h (i + 1) (by omega), h (i - 1) (by omega)]

/-- The four entries as one-dimensional difference quotients through the pixel. -/
theorem gridJac_eq (v : ℝ → ℝ → ℝ × ℝ) (x0 y0 ps : ℝ) {nx ny : ℕ} (hnx : 2 ≤ nx) (hny : 2 ≤ ny) {i j : ℕ}
    (hi : i < ny) (hj : j < nx) :
    gridJac v x0 y0 ps nx ny i j = some
      { a00 := gradient1 (fun k => (v (pixelAt x0 ps nx 0 + k * ps) (pixelAt y0 ps ny i)).1) nx ps j
        a01 := gradient1 (fun k => (v (pixelAt x0 ps nx j) (pixelAt y0 ps ny 0 + k * ps)).1) ny ps i
        a10 := gradient1 (fun k => (v (pixelAt x0 ps nx 0 + k * ps) (pixelAt y0 ps ny i)).2) nx ps j
        a11 := gradient1 (fun k => (v (pixelAt x0 ps nx j) (pixelAt y0 ps ny 0 + k * ps)).2) ny ps i } := by
  obtain ⟨-, -, -, -, hE⟩ := C06_entries ps nx (some ny)
  have hX : ∀ i j, i < ny → j < nx →
      entry (meshgrid ps nx (some ny)).1 i j + x0 = pixelAt x0 ps nx 0 + j * ps := by
    intro i j hi hj
    rw [← pixelAt_eq]
    unfold entry
    rw [(hE i j hi hj).1, pixelAt, add_comm]; rfl
  have hY : ∀ i j, i < ny → j < nx →
      entry (meshgrid ps nx (some ny)).2 i j + y0 = pixelAt y0 ps ny 0 + i * ps := by
    intro i j hi hj
    rw [← pixelAt_eq]
    unfold entry
    rw [(hE i j hi hj).2, pixelAt, add_comm]; rfl
  simp only [gridJac, jacFiniteDiff, gradient2]
  rw [if_neg (by omega), if_neg (by omega)]
  refine congrArg some ?_
  rw [pixelAt_eq x0 ps nx j, pixelAt_eq y0 ps ny i]
  ext
  · dsimp only
    refine gradient1_congr hnx (fun k hk => ?_) ps hj
    rw [hX i k hi hk, hY i k hi hk]
  · dsimp only
    refine gradient1_congr hny (fun k hk => ?_) ps hi
    rw [hX k j hk hj, hY k j hk hj]
  · dsimp only
    refine gradient1_congr hnx (fun k hk => ?_) ps hj
    rw [hX i k hi hk, hY i k hi hk]
  · dsimp only
    refine gradient1_congr hny (fun k hk => ?_) ps hi
    rw [hX k j hk hj, hY k j hk hj]

/-- On a grid of at least two by two pixels every entry that is returned, in every pixel, edges and corners
included, is a value the exact entry takes within one pixel along the axis of differentiation.  Nothing is assumed
about the deflection farther away. -/
theorem C103_mean_value (v : ℝ → ℝ → ℝ × ℝ) (J : ℝ → ℝ → M22 ℝ) (x0 y0 : ℝ) {ps : ℝ} (hps : 0 < ps) {nx ny : ℕ}
    (hnx : 2 ≤ nx) (hny : 2 ≤ ny) {i j : ℕ} (hi : i < ny) (hj : j < nx) :
    let x := pixelAt x0 ps nx j
    let y := pixelAt y0 ps ny i
    JacNear v J ps x y →
    ∃ A, gridJac v x0 y0 ps nx ny i j = some A ∧
      (∃ t, |t - x| ≤ ps ∧ A.a00 = (J t y).a00) ∧ (∃ t, |t - y| ≤ ps ∧ A.a01 = (J x t).a01) ∧
      (∃ t, |t - x| ≤ ps ∧ A.a10 = (J t y).a10) ∧ (∃ t, |t - y| ≤ ps ∧ A.a11 = (J x t).a11) := by
  intro x y hJ
  have ex : x = pixelAt x0 ps nx 0 + j * ps := pixelAt_eq _ _ _ _
  have ey : y = pixelAt y0 ps ny 0 + i * ps := pixelAt_eq _ _ _ _
  refine ⟨_, gridJac_eq v x0 y0 ps hnx hny hi hj, ?_, ?_, ?_, ?_⟩
  · obtain ⟨c, h2, h3⟩ := gradient1_mean (f := fun t => (v t y).1) (f' := fun t => (J t y).a00) hps hnx hj
      (fun t ht => (hJ.row t (ex ▸ ht)).1.along_x)
    exact ⟨c, ex ▸ h2, h3⟩
  · obtain ⟨c, h2, h3⟩ := gradient1_mean (f := fun t => (v x t).1) (f' := fun t => (J x t).a01) hps hny hi
      (fun t ht => (hJ.col t (ey ▸ ht)).1.along_y)
    exact ⟨c, ey ▸ h2, h3⟩
  · obtain ⟨c, h2, h3⟩ := gradient1_mean (f := fun t => (v t y).2) (f' := fun t => (J t y).a10) hps hnx hj
      (fun t ht => (hJ.row t (ex ▸ ht)).2.along_x)
    exact ⟨c, ex ▸ h2, h3⟩
  · obtain ⟨c, h2, h3⟩ := gradient1_mean (f := fun t => (v x t).2) (f' := fun t => (J x t).a11) hps hny hi
      (fun t ht => (hJ.col t (ey ▸ ht)).2.along_y)
    exact ⟨c, ey ▸ h2, h3⟩

/-- The entries of `A` and `B` differ by at most `d`. -/
def M22.Within (A B : M22 ℝ) (d : ℝ) : Prop :=
  |A.a00 - B.a00| ≤ d ∧ |A.a01 - B.a01| ≤ d ∧ |A.a10 - B.a10| ≤ d ∧ |A.a11 - B.a11| ≤ d

/-- First order everywhere: if the exact Jacobian changes by at most `M` per unit length along the axes within one
pixel, every entry, in every pixel, is off by at most `M` times the pixel scale. -/
theorem C103_first_order (v : ℝ → ℝ → ℝ × ℝ) (J : ℝ → ℝ → M22 ℝ) (x0 y0 : ℝ) {ps : ℝ} (hps : 0 < ps) {nx ny : ℕ}
    (hnx : 2 ≤ nx) (hny : 2 ≤ ny) {i j : ℕ} (hi : i < ny) (hj : j < nx) {M : ℝ} (hM0 : 0 ≤ M) :
    let x := pixelAt x0 ps nx j
    let y := pixelAt y0 ps ny i
    JacNear v J ps x y → (∀ t, |t - x| ≤ ps → (J t y).Within (J x y) (M * |t - x|)) →
    (∀ t, |t - y| ≤ ps → (J x t).Within (J x y) (M * |t - y|)) →
    ∃ A, gridJac v x0 y0 ps nx ny i j = some A ∧ A.Within (J x y) (M * ps) := by
  intro x y hJ hMx hMy
  obtain ⟨A, hA, ⟨t0, h0, e0⟩, ⟨t1, h1, e1⟩, ⟨t2, h2, e2⟩, t3, h3, e3⟩ :=
    C103_mean_value v J x0 y0 hps hnx hny hi hj hJ
  refine ⟨A, hA, ?_, ?_, ?_, ?_⟩
  · rw [e0]; exact (hMx _ h0).1.trans (mul_le_mul_of_nonneg_left h0 hM0)
  · rw [e1]; exact (hMy _ h1).2.1.trans (mul_le_mul_of_nonneg_left h1 hM0)
  · rw [e2]; exact (hMx _ h2).2.2.1.trans (mul_le_mul_of_nonneg_left h2 hM0)
  · rw [e3]; exact (hMy _ h3).2.2.2.trans (mul_le_mul_of_nonneg_left h3 hM0)

/-- Second order away from the edges: if the derivatives `Dx`, `Dy` of the exact Jacobian along the axes exist within
one pixel and change by at most `M` per unit length there, every entry in the interior is off by at most `M ps² / 6`. -/
theorem C103_second_order (v : ℝ → ℝ → ℝ × ℝ) (J Dx Dy : ℝ → ℝ → M22 ℝ) (x0 y0 : ℝ) {ps : ℝ} (hps : 0 < ps)
    {nx ny : ℕ} {i j : ℕ} (hi0 : 0 < i) (hi : i + 1 < ny) (hj0 : 0 < j) (hj : j + 1 < nx) {M : ℝ} :
    let x := pixelAt x0 ps nx j
    let y := pixelAt y0 ps ny i
    JacNear v J ps x y →
    (∀ t, |t - x| ≤ ps → HasDerivAt (fun t => (J t y).a00) (Dx t y).a00 t ∧
      HasDerivAt (fun t => (J t y).a10) (Dx t y).a10 t) →
    (∀ t, |t - y| ≤ ps → HasDerivAt (fun t => (J x t).a01) (Dy x t).a01 t ∧
      HasDerivAt (fun t => (J x t).a11) (Dy x t).a11 t) →
    (∀ s t, |s - x| ≤ ps → |t - x| ≤ ps → (Dx s y).Within (Dx t y) (M * |s - t|)) →
    (∀ s t, |s - y| ≤ ps → |t - y| ≤ ps → (Dy x s).Within (Dy x t) (M * |s - t|)) →
    ∃ A, gridJac v x0 y0 ps nx ny i j = some A ∧ A.Within (J x y) (M * ps ^ 2 / 6) := by
  intro x y hJ hDx hDy hMx hMy
  have ex : x = pixelAt x0 ps nx 0 + j * ps := pixelAt_eq _ _ _ _
  have ey : y = pixelAt y0 ps ny 0 + i * ps := pixelAt_eq _ _ _ _
  refine ⟨_, gridJac_eq v x0 y0 ps (by omega) (by omega) (by omega) (by omega), ?_, ?_, ?_, ?_⟩
  · have := gradient1_interior (f := fun t => (v t y).1) (f' := fun t => (J t y).a00) (f'' := fun t => (Dx t y).a00)
      hps hj0 hj (fun t ht => (hJ.row t (ex ▸ ht)).1.along_x) (fun t ht => (hDx t (ex ▸ ht)).1)
      (fun s t hs ht => (hMx s t (ex ▸ hs) (ex ▸ ht)).1)
    rwa [← pixelAt_eq] at this
  · have := gradient1_interior (f := fun t => (v x t).1) (f' := fun t => (J x t).a01) (f'' := fun t => (Dy x t).a01)
      hps hi0 hi (fun t ht => (hJ.col t (ey ▸ ht)).1.along_y) (fun t ht => (hDy t (ey ▸ ht)).1)
      (fun s t hs ht => (hMy s t (ey ▸ hs) (ey ▸ ht)).2.1)
    rwa [← pixelAt_eq] at this
  · have := gradient1_interior (f := fun t => (v t y).2) (f' := fun t => (J t y).a10) (f'' := fun t => (Dx t y).a10)
      hps hj0 hj (fun t ht => (hJ.row t (ex ▸ ht)).2.along_x) (fun t ht => (hDx t (ex ▸ ht)).2)
      (fun s t hs ht => (hMx s t (ex ▸ hs) (ex ▸ ht)).2.2.1)
    rwa [← pixelAt_eq] at this
  · have := gradient1_interior (f := fun t => (v x t).2) (f' := fun t => (J x t).a11) (f'' := fun t => (Dy x t).a11)
      hps hi0 hi (fun t ht => (hJ.col t (ey ▸ ht)).2.along_y) (fun t ht => (hDy t (ey ▸ ht)).2)
      (fun s t hs ht => (hMy s t (ey ▸ hs) (ey ▸ ht)).2.2.2)
    rwa [← pixelAt_eq] at this

/-- `v` is continuously differentiable at `p` with Jacobian `J`. -/
structure SmoothAt (v : ℝ → ℝ → ℝ × ℝ) (J : ℝ → ℝ → M22 ℝ) (p : ℝ × ℝ) : Prop where
  jac : ∀ᶠ q : ℝ × ℝ in 𝓝 p, HasJac v (J q.1 q.2).a00 (J q.1 q.2).a01 (J q.1 q.2).a10 (J q.1 q.2).a11 q.1 q.2
  c00 : ContinuousAt (fun q : ℝ × ℝ => (J q.1 q.2).a00) p
  c01 : ContinuousAt (fun q : ℝ × ℝ => (J q.1 q.2).a01) p
  c10 : ContinuousAt (fun q : ℝ × ℝ => (J q.1 q.2).a10) p
  c11 : ContinuousAt (fun q : ℝ × ℝ => (J q.1 q.2).a11) p

/-- Refining the grid, moving it, and growing or shrinking the field: the value in any pixel close to `p`, at an edge
or not, is close to the exact Jacobian at `p`. -/
theorem C103_converges {v : ℝ → ℝ → ℝ × ℝ} {J : ℝ → ℝ → M22 ℝ} {p : ℝ × ℝ} (hv : SmoothAt v J p) {ε : ℝ}
    (hε : 0 < ε) :
    ∃ δ > 0, ∀ (x0 y0 ps : ℝ) (nx ny i j : ℕ), 0 < ps → ps < δ → 2 ≤ nx → 2 ≤ ny → i < ny → j < nx →
      |pixelAt x0 ps nx j - p.1| < δ → |pixelAt y0 ps ny i - p.2| < δ →
      ∃ A, gridJac v x0 y0 ps nx ny i j = some A ∧ A.Within (J p.1 p.2) ε := by
  have h00 := (Metric.tendsto_nhds.1 hv.c00) ε hε
  have h01 := (Metric.tendsto_nhds.1 hv.c01) ε hε
  have h10 := (Metric.tendsto_nhds.1 hv.c10) ε hε
  have h11 := (Metric.tendsto_nhds.1 hv.c11) ε hε
  obtain ⟨r, hr, hball⟩ := Metric.eventually_nhds_iff.1 (hv.jac.and (h00.and (h01.and (h10.and h11))))
  have near : ∀ s t : ℝ, |s - p.1| < r → |t - p.2| < r → dist ((s, t) : ℝ × ℝ) p < r := by
    intro s t hs ht
    rw [Prod.dist_eq, Real.dist_eq, Real.dist_eq]
    exact max_lt hs ht
  refine ⟨r / 2, by positivity, ?_⟩
  intro x0 y0 ps nx ny i j hps hpsr hnx hny hi hj hx hy
  have hs : ∀ {t x c : ℝ}, |t - x| ≤ ps → |x - c| < r / 2 → |t - c| < r := by
    intro t x c h1 h2
    have := abs_sub_le t x c
    linarith
  have hs' : ∀ {x c : ℝ}, |x - c| < r / 2 → |x - c| < r := by
    intro x c h
    linarith
  obtain ⟨A, hA, ⟨t0, g0, e0⟩, ⟨t1, g1, e1⟩, ⟨t2, g2, e2⟩, t3, g3, e3⟩ :=
    C103_mean_value v J x0 y0 hps hnx hny hi hj
      ⟨fun t ht => (hball (near t _ (hs ht hx) (hs' hy))).1, fun t ht => (hball (near _ t (hs' hx) (hs ht hy))).1⟩
  refine ⟨A, hA, ?_, ?_, ?_, ?_⟩
  · rw [e0]; exact (hball (near t0 _ (hs g0 hx) (hs' hy))).2.1.le
  · rw [e1]; exact (hball (near _ t1 (hs' hx) (hs g1 hy))).2.2.1.le
  · rw [e2]; exact (hball (near t2 _ (hs g2 hx) (hs' hy))).2.2.2.1.le
  · rw [e3]; exact (hball (near _ t3 (hs' hx) (hs g3 hy))).2.2.2.2.le

/-- Magnification and shear read off the finite difference Jacobian converge too, away from the critical curves. -/
theorem C103_magnification {v : ℝ → ℝ → ℝ × ℝ} {J : ℝ → ℝ → M22 ℝ} {p : ℝ × ℝ} (hv : SmoothAt v J p)
    (hcrit : (1 - (J p.1 p.2).a00) * (1 - (J p.1 p.2).a11) - (J p.1 p.2).a01 * (J p.1 p.2).a10 ≠ 0) {ε : ℝ}
    (hε : 0 < ε) :
    ∃ δ > 0, ∀ (x0 y0 ps : ℝ) (nx ny i j : ℕ), 0 < ps → ps < δ → 2 ≤ nx → 2 ≤ ny → i < ny → j < nx →
      |pixelAt x0 ps nx j - p.1| < δ → |pixelAt y0 ps ny i - p.2| < δ →
      ∃ A, gridJac v x0 y0 ps nx ny i j = some A ∧
        |pixelMagnification (lensEqJac A) -
          1 / abs ((1 - (J p.1 p.2).a00) * (1 - (J p.1 p.2).a11) - (J p.1 p.2).a01 * (J p.1 p.2).a10)| < ε ∧
        |(shearFromJac (lensEqJac A)).1 - ((J p.1 p.2).a00 - (J p.1 p.2).a11) / 2| < ε ∧
        |(shearFromJac (lensEqJac A)).2 - (J p.1 p.2).a01| < ε := by
  set B := J p.1 p.2 with hB
  have hc : ContinuousAt (fun q : ℝ × ℝ × ℝ × ℝ => 1 / |(1 - q.1) * (1 - q.2.2.2) - q.2.1 * q.2.2.1|)
      (B.a00, B.a01, B.a10, B.a11) := by
    refine ContinuousAt.div continuousAt_const ?_ (abs_ne_zero.2 hcrit)
    exact Continuous.continuousAt (by fun_prop)
  obtain ⟨η, hη, hcl⟩ := Metric.continuousAt_iff.1 hc ε hε
  obtain ⟨δ, hδ, h⟩ := C103_converges hv (ε := min η ε / 2) (by positivity)
  refine ⟨δ, hδ, ?_⟩
  intro x0 y0 ps nx ny i j h1 h2 h3 h4 h5 h6 h7 h8
  obtain ⟨A, hA, a0, a1, a2, a3⟩ := h x0 y0 ps nx ny i j h1 h2 h3 h4 h5 h6 h7 h8
  have m1 : min η ε / 2 < η := by have := min_le_left η ε; have := lt_min hη hε; linarith
  have m2 : min η ε / 2 < ε := by have := min_le_right η ε; have := lt_min hη hε; linarith
  refine ⟨A, hA, ?_, ?_, ?_⟩
  · have := @hcl (A.a00, A.a01, A.a10, A.a11) (by
      simp only [Prod.dist_eq, Real.dist_eq]
      exact max_lt (a0.trans_lt m1) (max_lt (a1.trans_lt m1) (max_lt (a2.trans_lt m1) (a3.trans_lt m1))))
    rw [Real.dist_eq] at this
    unfold pixelMagnification lensEqJac
    simpa only [zero_sub, neg_mul_neg] using this
  · rw [show (shearFromJac (lensEqJac A)).1 - (B.a00 - B.a11) / 2 = ((A.a00 - B.a00) - (A.a11 - B.a11)) / 2 by
      simp only [shearFromJac, lensEqJac]; ring, abs_div, abs_two]
    have := abs_sub (A.a00 - B.a00) (A.a11 - B.a11)
    linarith
  · rw [show (shearFromJac (lensEqJac A)).2 - B.a01 = A.a01 - B.a01 by
      simp only [shearFromJac, lensEqJac]; ring]
    exact a1.trans_lt m2

/-! ### Examples -/

/-- Jacobian of the deflection of a point mass of Einstein radius 1 at the origin. -/
noncomputable def exPointJac (x y : ℝ) : M22 ℝ :=
  ⟨1 / (x ^ 2 + y ^ 2) - 2 * x ^ 2 / (x ^ 2 + y ^ 2) ^ 2, -2 * (x * y) / (x ^ 2 + y ^ 2) ^ 2,
    -2 * (x * y) / (x ^ 2 + y ^ 2) ^ 2, 1 / (x ^ 2 + y ^ 2) - 2 * y ^ 2 / (x ^ 2 + y ^ 2) ^ 2⟩

theorem exPoint_hasJac {x y : ℝ} (h : x ≠ 0 ∨ y ≠ 0) :
    HasJac (pointDeflection 0 0 1 0) (exPointJac x y).a00 (exPointJac x y).a01 (exPointJac x y).a10
      (exPointJac x y).a11 x y := by
  have hR : 0 < √(x ^ 2 + y ^ 2) := radius_pos h
  have hR2 : √(x ^ 2 + y ^ 2) ^ 2 = x ^ 2 + y ^ 2 := Real.sq_sqrt (by positivity)
  have := hasJac_radial (A := fun r => 1 / r) (A' := -1 / √(x ^ 2 + y ^ 2) ^ 2) h
    (((hasDerivAt_const _ (1 : ℝ)).div (hasDerivAt_id _) hR.ne').congr_deriv (by simp))
  have e : (fun x y : ℝ => (1 / √(x ^ 2 + y ^ 2) * x / √(x ^ 2 + y ^ 2), 1 / √(x ^ 2 + y ^ 2) * y / √(x ^ 2 + y ^ 2)))
      = pointDeflection 0 0 1 0 := by
    funext x y
    simp only [pointDeflection, translateRotate, sub_zero, add_zero, one_pow, mul_one]
    rw [Prod.mk.injEq]
    constructor <;> rw [one_div_mul_eq_div, div_div, ← sq]
  simp only [e] at this
  have hb : (-1 / √(x ^ 2 + y ^ 2) ^ 2 - 1 / √(x ^ 2 + y ^ 2) / √(x ^ 2 + y ^ 2)) / √(x ^ 2 + y ^ 2) ^ 2
      = -2 / (x ^ 2 + y ^ 2) ^ 2 := by
    rw [div_div 1, ← sq, hR2]
    have : x ^ 2 + y ^ 2 ≠ 0 := by rw [← hR2]; positivity
    field_simp
    norm_num
  have ha : 1 / √(x ^ 2 + y ^ 2) / √(x ^ 2 + y ^ 2) = 1 / (x ^ 2 + y ^ 2) := by rw [div_div, ← sq, hR2]
  rw [hb, ha] at this
  exact ⟨this.1.congr (by simp only [exPointJac]; ring) (by simp only [exPointJac]; ring),
    this.2.congr (by simp only [exPointJac]; ring) (by simp only [exPointJac]; ring)⟩

theorem exPoint_smooth : SmoothAt (pointDeflection 0 0 1 0) exPointJac (2, 0) := by
  have hne : ((2 : ℝ), (0 : ℝ)).1 ^ 2 + ((2 : ℝ), (0 : ℝ)).2 ^ 2 ≠ 0 := by norm_num
  have hne2 : (((2 : ℝ), (0 : ℝ)).1 ^ 2 + ((2 : ℝ), (0 : ℝ)).2 ^ 2) ^ 2 ≠ 0 := by norm_num
  refine ⟨?_, ?_, ?_, ?_, ?_⟩
  · have : ∀ᶠ q : ℝ × ℝ in 𝓝 (2, 0), 0 < q.1 :=
      (continuous_fst.continuousAt (x := ((2 : ℝ), (0 : ℝ)))).eventually (lt_mem_nhds (by norm_num : (0 : ℝ) < 2))
    exact this.mono fun q hq => exPoint_hasJac (Or.inl hq.ne')
  all_goals
    simp only [exPointJac]
    first
    | exact ContinuousAt.div (Continuous.continuousAt (by fun_prop)) (Continuous.continuousAt (by fun_prop)) hne2
    | refine ContinuousAt.sub ?_ ?_
      · exact ContinuousAt.div (Continuous.continuousAt (by fun_prop)) (Continuous.continuousAt (by fun_prop)) hne
      · exact ContinuousAt.div (Continuous.continuousAt (by fun_prop)) (Continuous.continuousAt (by fun_prop)) hne2

/-- Two Einstein radii from a point mass the magnification is `16/15`, and finite differences find it on every fine
enough grid, although the field may well contain the singular centre. -/
example : ∃ δ > 0, ∀ (x0 y0 ps : ℝ) (nx ny i j : ℕ), 0 < ps → ps < δ → 2 ≤ nx → 2 ≤ ny → i < ny → j < nx →
      |pixelAt x0 ps nx j - 2| < δ → |pixelAt y0 ps ny i - 0| < δ →
      ∃ A, gridJac (pointDeflection 0 0 1 0) x0 y0 ps nx ny i j = some A ∧
        |pixelMagnification (lensEqJac A) - 16 / 15| < 1 / 1000 ∧
        |(shearFromJac (lensEqJac A)).1 - -1 / 4| < 1 / 1000 := by
  obtain ⟨δ, hδ, h⟩ := C103_magnification exPoint_smooth (by norm_num [exPointJac]) (ε := 1 / 1000) (by norm_num)
  refine ⟨δ, hδ, ?_⟩
  intro x0 y0 ps nx ny i j h1 h2 h3 h4 h5 h6 h7 h8
  obtain ⟨A, hA, a, b, -⟩ := h x0 y0 ps nx ny i j h1 h2 h3 h4 h5 h6 h7 h8
  refine ⟨A, hA, ?_, ?_⟩
  · convert a using 3
    norm_num [exPointJac]
  · convert b using 3
    norm_num [exPointJac]

/-- A cubic deflection: the interior error is at most `ps²`. -/
example (x0 y0 : ℝ) {ps : ℝ} (hps : 0 < ps) {n i j : ℕ} (hi0 : 0 < i) (hi : i + 1 < n) (hj0 : 0 < j) (hj : j + 1 < n) :
    ∃ A, gridJac (fun x y => (x ^ 3, y ^ 3)) x0 y0 ps n n i j = some A ∧
      A.Within ⟨3 * pixelAt x0 ps n j ^ 2, 0, 0, 3 * pixelAt y0 ps n i ^ 2⟩ (6 * ps ^ 2 / 6) := by
  have hJ : ∀ x y : ℝ, HasJac (fun x y : ℝ => (x ^ 3, y ^ 3)) (3 * x ^ 2) 0 0 (3 * y ^ 2) x y := by
    intro x y
    have d : ∀ t : ℝ, HasDerivAt (fun t : ℝ => t ^ 3) (3 * t ^ 2) t := fun t => by
      simpa using hasDerivAt_pow 3 t
    exact ⟨((HasGrad.fst x y).comp (d x)).congr (by ring) (by ring),
      ((HasGrad.snd x y).comp (d y)).congr (by ring) (by ring)⟩
  have d : ∀ t : ℝ, HasDerivAt (fun t : ℝ => 3 * t ^ 2) (6 * t) t := fun t =>
    (((hasDerivAt_pow 2 t).const_mul 3).congr_deriv (by norm_num; ring))
  refine C103_second_order (fun x y => (x ^ 3, y ^ 3)) (fun x y => ⟨3 * x ^ 2, 0, 0, 3 * y ^ 2⟩)
    (fun x _ => ⟨6 * x, 0, 0, 0⟩) (fun _ y => ⟨0, 0, 0, 6 * y⟩) x0 y0 hps hi0 hi hj0 hj
    ⟨fun t _ => hJ t _, fun t _ => hJ _ t⟩ (fun t _ => ⟨d t, hasDerivAt_const _ _⟩)
    (fun t _ => ⟨hasDerivAt_const _ _, d t⟩) ?_ ?_
  all_goals
    intro s t _ _
    have e : |6 * s - 6 * t| ≤ 6 * |s - t| := by rw [← mul_sub, abs_mul]; norm_num
    have z : |(0 : ℝ) - 0| ≤ 6 * |s - t| := by rw [sub_zero, abs_zero]; positivity
  · exact ⟨e, z, z, z⟩
  · exact ⟨z, z, z, e⟩

/-- A quadratic deflection: at most `2 ps` off, edges and corners included. -/
example (x0 y0 : ℝ) {ps : ℝ} (hps : 0 < ps) {n i j : ℕ} (hn : 2 ≤ n) (hi : i < n) (hj : j < n) :
    ∃ A, gridJac (fun x y => (x ^ 2, y ^ 2)) x0 y0 ps n n i j = some A ∧
      A.Within ⟨2 * pixelAt x0 ps n j, 0, 0, 2 * pixelAt y0 ps n i⟩ (2 * ps) := by
  have hJ : ∀ x y : ℝ, HasJac (fun x y : ℝ => (x ^ 2, y ^ 2)) (2 * x) 0 0 (2 * y) x y := by
    intro x y
    have d : ∀ t : ℝ, HasDerivAt (fun t : ℝ => t ^ 2) (2 * t) t := fun t => by
      simpa using hasDerivAt_pow 2 t
    exact ⟨((HasGrad.fst x y).comp (d x)).congr (by ring) (by ring),
      ((HasGrad.snd x y).comp (d y)).congr (by ring) (by ring)⟩
  refine C103_first_order (fun x y => (x ^ 2, y ^ 2)) (fun x y => ⟨2 * x, 0, 0, 2 * y⟩) x0 y0 hps hn hn hi hj
    (M := 2) (by norm_num) ⟨fun t _ => hJ t _, fun t _ => hJ _ t⟩ ?_ ?_
  all_goals
    intro t _
    have e : ∀ a b : ℝ, |2 * a - 2 * b| ≤ 2 * |a - b| := fun a b => by rw [← mul_sub, abs_mul]; norm_num
    have z : ∀ a b c : ℝ, |c - c| ≤ 2 * |a - b| := fun a b c => by rw [sub_self, abs_zero]; positivity
  · exact ⟨e _ _, z _ _ _, z _ _ _, z _ _ _⟩
  · exact ⟨z _ _ _, z _ _ _, z _ _ _, e _ _⟩

end Caustics

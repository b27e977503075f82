import Verif.Props.PixLight
import Verif.Props.FiniteDiff
import Mathlib.Analysis.Convex.Deriv

/-! C104: how well a table stands for the function it was sampled from. -/

namespace Caustics

open Filter Topology Set

/-- Samples of `f` at the pixel centres of a grid of `h` by `w` pixels of size `ps` centred on `(x0, y0)`: what a user
gets by evaluating `f` on `meshgrid(ps, w, h)` moved to the centre. -/
noncomputable def tabSamples (f : ℝ → ℝ → ℝ) (x0 y0 ps : ℝ) (h w : ℕ) : Fin h → Fin w → ℝ :=
  fun i j => f (pixelAt x0 ps w j) (pixelAt y0 ps h i)

/-! ### One axis -/

theorem lin_frame {n : ℕ} (hn : 2 ≤ n) {p : ℝ} (h0 : -(1 / 2) ≤ p) (h1 : p ≤ n - 1 / 2) :
    ∃ k : ℕ, k + 1 < n ∧ (∀ g : ℤ → ℝ, lin n p g = g k * ((k : ℝ) + 1 - p) + g ((k + 1 : ℕ) : ℤ) * (p - k)) ∧
      -(1 / 2) ≤ p - k ∧ p - k ≤ 3 / 2 ∧ (0 ≤ p → p ≤ n - 1 → 0 ≤ p - k ∧ p - k ≤ 1) := by
  obtain ⟨c0, c1⟩ := cell_bounds2 hn p
  obtain ⟨k, hk⟩ : ∃ k : ℕ, cell n p = k := ⟨(cell n p).toNat, by omega⟩
  have hfl := Int.floor_le p
  have hlt := Int.lt_floor_add_one p
  have hfm : (-1 : ℤ) ≤ ⌊p⌋ := Int.le_floor.2 (by push_cast; linarith)
  have hcases : (⌊p⌋ < 0 ∧ k = 0) ∨ (0 ≤ ⌊p⌋ ∧ ⌊p⌋ ≤ (n : ℤ) - 2 ∧ (k : ℤ) = ⌊p⌋) ∨
      ((n : ℤ) - 2 < ⌊p⌋ ∧ (k : ℤ) = n - 2) := by
    unfold cell clamp at hk
    omega
  refine ⟨k, by omega, ?_, ?_⟩
  · intro g
    unfold lin
    rw [hk]
    push_cast
    rfl
  · rcases hcases with ⟨a, rfl⟩ | ⟨a, b, c⟩ | ⟨a, c⟩
    · have : p < 0 := by
        by_contra hc
        have : (0 : ℤ) ≤ ⌊p⌋ := Int.le_floor.2 (by push_cast; linarith)
        omega
      refine ⟨by simpa using h0, by push_cast; linarith, fun h => absurd h (by linarith)⟩
    · have c' : (k : ℝ) = (⌊p⌋ : ℝ) := by exact_mod_cast c
      rw [c']
      exact ⟨by linarith, by linarith, fun _ _ => ⟨by linarith, by linarith⟩⟩
    · have c' : (k : ℝ) = (n : ℝ) - 2 := by exact_mod_cast c
      have a' : (n : ℝ) - 1 ≤ p := by
        have : ((n : ℤ) - 1 : ℤ) ≤ ⌊p⌋ := by omega
        have := Int.le_floor.1 this
        push_cast at this
        exact this
      rw [c']
      exact ⟨by linarith, by linarith, fun _ h => ⟨by linarith, by linarith⟩⟩

/-- Chord against graph for a function with second derivative at most `M`. -/
theorem chord_error {g g' g'' : ℝ → ℝ} {a h M : ℝ} (hh : 0 < h)
    (hg : ∀ t ∈ Icc a (a + h), HasDerivAt g (g' t) t) (hg' : ∀ t ∈ Icc a (a + h), HasDerivAt g' (g'' t) t)
    (hM : ∀ t ∈ Icc a (a + h), |g'' t| ≤ M) {s : ℝ} (hs0 : 0 ≤ s) (hs1 : s ≤ 1) :
    |(1 - s) * g a + s * g (a + h) - g (a + s * h)| ≤ M * h ^ 2 / 8 := by
  have hM0 : 0 ≤ M := (abs_nonneg _).trans (hM a ⟨le_rfl, by linarith⟩)
  have one : ∀ (u u' u'' : ℝ → ℝ), (∀ t ∈ Icc a (a + h), HasDerivAt u (u' t) t) →
      (∀ t ∈ Icc a (a + h), HasDerivAt u' (u'' t) t) → (∀ t ∈ Icc a (a + h), -M ≤ u'' t) →
      u (a + s * h) - ((1 - s) * u a + s * u (a + h)) ≤ M * h ^ 2 / 8 := by
    intro u u' u'' hu hu' hb
    have hint : interior (Icc a (a + h)) ⊆ Icc a (a + h) := interior_subset
    have q1 : ∀ t ∈ Icc a (a + h), HasDerivAt (fun t => u t + M / 2 * t ^ 2) (u' t + M * t) t := by
      intro t ht
      exact ((hu t ht).add ((hasDerivAt_pow 2 t).const_mul (M / 2))).congr_deriv (by norm_num; ring)
    have q2 : ∀ t ∈ Icc a (a + h), HasDerivAt (fun t => u' t + M * t) (u'' t + M) t := by
      intro t ht
      exact ((hu' t ht).add ((hasDerivAt_id t).const_mul M)).congr_deriv (by simp)
    have hcv : ConvexOn ℝ (Icc a (a + h)) (fun t => u t + M / 2 * t ^ 2) :=
      convexOn_of_hasDerivWithinAt2_nonneg (convex_Icc _ _)
        (fun t ht => (q1 t ht).continuousAt.continuousWithinAt)
        (fun t ht => (q1 t (hint ht)).hasDerivWithinAt) (fun t ht => (q2 t (hint ht)).hasDerivWithinAt)
        (fun t ht => by linarith [hb t (hint ht)])
    have := hcv.2 (show a ∈ Icc a (a + h) from ⟨le_rfl, by linarith⟩)
      (show a + h ∈ Icc a (a + h) from ⟨by linarith, le_rfl⟩) (show 0 ≤ 1 - s by linarith) hs0 (by ring)
    simp only [smul_eq_mul] at this
    rw [show (1 - s) * a + s * (a + h) = a + s * h by ring] at this
    have hq : s * (1 - s) ≤ 1 / 4 := by nlinarith [sq_nonneg (s - 1 / 2)]
    have hr : M / 2 * ((1 - s) * a ^ 2 + s * (a + h) ^ 2 - (a + s * h) ^ 2) = M / 2 * h ^ 2 * (s * (1 - s)) := by ring
    have : M / 2 * h ^ 2 * (s * (1 - s)) ≤ M / 2 * h ^ 2 * (1 / 4) :=
      mul_le_mul_of_nonneg_left hq (by positivity)
    nlinarith
  rw [abs_le]
  constructor
  · have := one g g' g'' hg hg' (fun t ht => (abs_le.1 (hM t ht)).1)
    linarith
  · have := one (fun t => -g t) (fun t => -g' t) (fun t => -g'' t) (fun t ht => (hg t ht).neg)
      (fun t ht => (hg' t ht).neg) (fun t ht => by linarith [(abs_le.1 (hM t ht)).2])
    linarith

/-! ### Two axes -/

/-- In the rectangle of the table, border included, the interpolation is bilinear in four neighbouring samples. -/
theorem interp2d_rect {h w : ℕ} (hh : 2 ≤ h) (hw : 2 ≤ w) (im : Fin h → Fin w → ℝ) (x0 y0 x y : ℝ) {ps : ℝ}
    (hps : 0 < ps) (hx : |x - x0| ≤ ps * w / 2) (hy : |y - y0| ≤ ps * h / 2) :
    ∃ (i j : ℕ) (hi : i + 1 < h) (hj : j + 1 < w) (s t : ℝ),
      interp2d im ((x - x0) / (ps * (w : ℝ)) * 2) ((y - y0) / (ps * (h : ℝ)) * 2) "linear" "zeros" =
        .ok (bilinear (im ⟨i, by omega⟩ ⟨j, by omega⟩) (im ⟨i, by omega⟩ ⟨j + 1, hj⟩)
          (im ⟨i + 1, hi⟩ ⟨j, by omega⟩) (im ⟨i + 1, hi⟩ ⟨j + 1, hj⟩) s t) ∧
      x = pixelAt x0 ps w j + s * ps ∧ y = pixelAt y0 ps h i + t * ps ∧
      -(1 / 2) ≤ s ∧ s ≤ 3 / 2 ∧ -(1 / 2) ≤ t ∧ t ≤ 3 / 2 ∧
      (|x - x0| ≤ ps * (w - 1) / 2 → 0 ≤ s ∧ s ≤ 1) ∧ (|y - y0| ≤ ps * (h - 1) / 2 → 0 ≤ t ∧ t ≤ 1) := by
  have ax : ∀ (n : ℕ) (d : ℝ), 2 ≤ n → |d| ≤ ps * n / 2 →
      (-1 ≤ d / (ps * (n : ℝ)) * 2 ∧ d / (ps * (n : ℝ)) * 2 ≤ 1) ∧
      ∃ k : ℕ, k + 1 < n ∧ (∀ g : ℤ → ℝ, lin n (pixCoord n (d / (ps * (n : ℝ)) * 2)) g =
        g k * (1 - (pixCoord n (d / (ps * (n : ℝ)) * 2) - k)) + g ((k + 1 : ℕ) : ℤ) * (pixCoord n (d / (ps * (n : ℝ)) * 2) - k)) ∧
      d = ((k : ℝ) - ((n : ℝ) - 1) / 2) * ps + (pixCoord n (d / (ps * (n : ℝ)) * 2) - k) * ps ∧
      -(1 / 2) ≤ pixCoord n (d / (ps * (n : ℝ)) * 2) - k ∧ pixCoord n (d / (ps * (n : ℝ)) * 2) - k ≤ 3 / 2 ∧
      (|d| ≤ ps * (n - 1) / 2 → 0 ≤ pixCoord n (d / (ps * (n : ℝ)) * 2) - k ∧
        pixCoord n (d / (ps * (n : ℝ)) * 2) - k ≤ 1) := by
    intro n d hn hd
    obtain ⟨d1, d2⟩ := abs_le.1 hd
    have hfr := frame_le (K := ℝ) (n := n) (ps := ps) (d := d) hps (by omega)
    refine ⟨⟨not_lt.1 fun hc => absurd (hfr.2.1 hc) (by linarith), not_lt.1 fun hc => absurd (hfr.1.1 hc) (by linarith)⟩, ?_⟩
    rw [frame_pix hps (by omega : 1 ≤ n)]
    have e : d / ps * ps = d := div_mul_cancel₀ d hps.ne'
    have b : ∀ c : ℝ, (-(ps * c) ≤ d → -c ≤ d / ps) ∧ (d ≤ ps * c → d / ps ≤ c) := by
      intro c
      constructor
      · intro hc; rw [le_div_iff₀ hps]; linarith
      · intro hc; rw [div_le_iff₀ hps]; linarith
    have b1 := (b (n / 2)).1 (by linarith)
    have b2 := (b (n / 2)).2 (by linarith)
    obtain ⟨k, hk, hg, h1, h2, h3⟩ := lin_frame hn (p := d / ps + ((n : ℝ) - 1) / 2) (by linarith) (by linarith)
    refine ⟨k, hk, ?_, ?_, h1, h2, ?_⟩
    · intro g; rw [hg]; ring
    · have : ((k : ℝ) - ((n : ℝ) - 1) / 2) * ps + (d / ps + ((n : ℝ) - 1) / 2 - k) * ps = d / ps * ps := by ring
      rw [this, e]
    · intro hd'
      obtain ⟨d1', d2'⟩ := abs_le.1 hd'
      have b3 := (b ((n - 1) / 2)).1 (by linarith)
      have b4 := (b ((n - 1) / 2)).2 (by linarith)
      exact h3 (by linarith) (by linarith)
  obtain ⟨⟨fx0, fx1⟩, j, hj, hlx, ex, s1, s2, s3⟩ := ax w (x - x0) hw hx
  obtain ⟨⟨fy0, fy1⟩, i, hi, hly, ey, t1, t2, t3⟩ := ax h (y - y0) hh hy
  refine ⟨i, j, hi, hj, _, _, ?_, ?_, ?_, s1, s2, t1, t2, s3, t3⟩
  · rw [interp2d_linear (by omega) (by omega) im _ _ "zeros" (Or.inr (Or.inr rfl)),
      if_neg (by rw [onFrame fx0 fx1, onFrame fy0 fy1]; simp), pad_id fx0 fx1, pad_id fy0 fy1, toPix_eq, toPix_eq]
    rw [hly, hlx, hlx, wrap_nat _ _ i (by omega), wrap_nat _ _ (i + 1) hi]
    simp only [wrap_nat _ _ j (show j < w by omega), wrap_nat _ _ (j + 1) hj]
    unfold bilinear
    congr 1
    ring
  · unfold pixelAt; linarith
  · unfold pixelAt; linarith

theorem bilinear_error {a b c d v E s t : ℝ} (ha : |a - v| ≤ E) (hb : |b - v| ≤ E) (hc : |c - v| ≤ E)
    (hd : |d - v| ≤ E) : |bilinear a b c d s t - v| ≤ (|1 - s| + |s|) * (|1 - t| + |t|) * E := by
  have e : bilinear a b c d s t - v =
      (1 - t) * ((1 - s) * (a - v) + s * (b - v)) + t * ((1 - s) * (c - v) + s * (d - v)) := by
    unfold bilinear; ring
  have row : ∀ p q : ℝ, |p| ≤ E → |q| ≤ E → |(1 - s) * p + s * q| ≤ (|1 - s| + |s|) * E := by
    intro p q hp hq
    refine (abs_add_le _ _).trans ?_
    rw [abs_mul, abs_mul, add_mul]
    exact add_le_add (mul_le_mul_of_nonneg_left hp (abs_nonneg _)) (mul_le_mul_of_nonneg_left hq (abs_nonneg _))
  rw [e]
  refine (abs_add_le _ _).trans ?_
  rw [abs_mul, abs_mul]
  calc _ ≤ |1 - t| * ((|1 - s| + |s|) * E) + |t| * ((|1 - s| + |s|) * E) :=
        add_le_add (mul_le_mul_of_nonneg_left (row _ _ ha hb) (abs_nonneg _))
          (mul_le_mul_of_nonneg_left (row _ _ hc hd) (abs_nonneg _))
    _ = _ := by ring

theorem weights_inside {s : ℝ} (h0 : 0 ≤ s) (h1 : s ≤ 1) : |1 - s| + |s| = 1 := by
  rw [abs_of_nonneg h0, abs_of_nonneg (by linarith)]; ring

theorem weights_border {s : ℝ} (h0 : -(1 / 2) ≤ s) (h1 : s ≤ 3 / 2) : |1 - s| + |s| ≤ 2 := by
  rcases abs_cases s with ⟨e, _⟩ | ⟨e, _⟩ <;> rcases abs_cases (1 - s) with ⟨e', _⟩ | ⟨e', _⟩ <;> rw [e, e'] <;>
    linarith

theorem pixelAt_near {x x0 ps s : ℝ} {n k : ℕ} (hps : 0 < ps) (e : x = pixelAt x0 ps n k + s * ps) :
    (0 ≤ s → s ≤ 1 → |pixelAt x0 ps n k - x| ≤ ps ∧ |pixelAt x0 ps n (k + 1) - x| ≤ ps) ∧
    (-(1 / 2) ≤ s → s ≤ 3 / 2 → |pixelAt x0 ps n k - x| ≤ 3 / 2 * ps ∧ |pixelAt x0 ps n (k + 1) - x| ≤ 3 / 2 * ps) := by
  have e2 : pixelAt x0 ps n (k + 1) = pixelAt x0 ps n k + ps := by unfold pixelAt; push_cast; ring
  rw [e2]
  subst e
  refine ⟨fun h0 h1 => ⟨abs_le.2 ⟨?_, ?_⟩, abs_le.2 ⟨?_, ?_⟩⟩, fun h0 h1 => ⟨abs_le.2 ⟨?_, ?_⟩, abs_le.2 ⟨?_, ?_⟩⟩⟩ <;>
    nlinarith

/-- The value read between the outermost pixel centres is as close to `v` as the samples within one pixel are; in the
half pixel border at most four times as far as the samples within one and a half pixels. -/
theorem table_close {h w : ℕ} (hh : 2 ≤ h) (hw : 2 ≤ w) (f : ℝ → ℝ → ℝ) (x0 y0 x y : ℝ) {ps : ℝ} (hps : 0 < ps) :
    (|x - x0| ≤ ps * (w - 1) / 2 → |y - y0| ≤ ps * (h - 1) / 2 → ∀ v E : ℝ,
      (∀ X Y, |X - x| ≤ ps → |Y - y| ≤ ps → |f X Y - v| ≤ E) →
      ∃ r, interp2d (tabSamples f x0 y0 ps h w) ((x - x0) / (ps * (w : ℝ)) * 2) ((y - y0) / (ps * (h : ℝ)) * 2) "linear"
        "zeros" = .ok r ∧ |r - v| ≤ E) ∧
    (|x - x0| ≤ ps * w / 2 → |y - y0| ≤ ps * h / 2 → ∀ v E : ℝ,
      (∀ X Y, |X - x| ≤ 3 / 2 * ps → |Y - y| ≤ 3 / 2 * ps → |f X Y - v| ≤ E) →
      ∃ r, interp2d (tabSamples f x0 y0 ps h w) ((x - x0) / (ps * (w : ℝ)) * 2) ((y - y0) / (ps * (h : ℝ)) * 2) "linear"
        "zeros" = .ok r ∧ |r - v| ≤ 4 * E) := by
  constructor
  · intro hx hy v E hE
    obtain ⟨i, j, hi, hj, s, t, hr, ex, ey, -, -, -, -, hs, ht⟩ := interp2d_rect hh hw (tabSamples f x0 y0 ps h w) x0 y0 x y hps
      (hx.trans (by linarith)) (hy.trans (by linarith))
    obtain ⟨s0, s1⟩ := hs hx
    obtain ⟨t0, t1⟩ := ht hy
    obtain ⟨nx, nx'⟩ := (pixelAt_near hps ex).1 s0 s1
    obtain ⟨ny, ny'⟩ := (pixelAt_near hps ey).1 t0 t1
    refine ⟨_, hr, ?_⟩
    refine (bilinear_error (E := E) (hE _ _ nx ny) (hE _ _ nx' ny) (hE _ _ nx ny') (hE _ _ nx' ny')).trans ?_
    rw [weights_inside s0 s1, weights_inside t0 t1, one_mul, one_mul]
  · intro hx hy v E hE
    obtain ⟨i, j, hi, hj, s, t, hr, ex, ey, s0, s1, t0, t1, -, -⟩ := interp2d_rect hh hw (tabSamples f x0 y0 ps h w) x0 y0 x y
      hps hx hy
    obtain ⟨nx, nx'⟩ := (pixelAt_near hps ex).2 s0 s1
    obtain ⟨ny, ny'⟩ := (pixelAt_near hps ey).2 t0 t1
    refine ⟨_, hr, ?_⟩
    have hE0 : 0 ≤ E := (abs_nonneg _).trans (hE _ _ nx ny)
    refine (bilinear_error (E := E) (hE _ _ nx ny) (hE _ _ nx' ny) (hE _ _ nx ny') (hE _ _ nx' ny')).trans ?_
    refine mul_le_mul_of_nonneg_right ?_ hE0
    have := mul_le_mul (weights_border s0 s1) (weights_border t0 t1) (by positivity) (by norm_num)
    linarith

/-- Second derivatives along the axes, within one pixel of `(x, y)`, at most `Mx` and `My`. -/
structure Curved (f : ℝ → ℝ → ℝ) (ps x y Mx My : ℝ) : Prop where
  along_x : ∃ f1 f2 : ℝ → ℝ, ∀ t, |t - x| ≤ ps →
    HasDerivAt (fun t => f t y) (f1 t) t ∧ HasDerivAt f1 (f2 t) t ∧ |f2 t| ≤ Mx
  along_y : ∀ X, |X - x| ≤ ps → ∃ f1 f2 : ℝ → ℝ, ∀ t, |t - y| ≤ ps →
    HasDerivAt (fun t => f X t) (f1 t) t ∧ HasDerivAt f1 (f2 t) t ∧ |f2 t| ≤ My

theorem table_curved {h w : ℕ} (hh : 2 ≤ h) (hw : 2 ≤ w) (f : ℝ → ℝ → ℝ) (x0 y0 x y : ℝ) {ps Mx My : ℝ} (hps : 0 < ps)
    (hx : |x - x0| ≤ ps * (w - 1) / 2) (hy : |y - y0| ≤ ps * (h - 1) / 2) (hf : Curved f ps x y Mx My) :
    ∃ r, interp2d (tabSamples f x0 y0 ps h w) ((x - x0) / (ps * (w : ℝ)) * 2) ((y - y0) / (ps * (h : ℝ)) * 2) "linear"
      "zeros" = .ok r ∧ |r - f x y| ≤ (Mx + My) * ps ^ 2 / 8 := by
  obtain ⟨i, j, hi, hj, s, t, hr, ex, ey, -, -, -, -, hs, ht⟩ := interp2d_rect hh hw (tabSamples f x0 y0 ps h w) x0 y0 x y hps
    (hx.trans (by linarith)) (hy.trans (by linarith))
  obtain ⟨s0, s1⟩ := hs hx
  obtain ⟨t0, t1⟩ := ht hy
  obtain ⟨nx, nx'⟩ := (pixelAt_near hps ex).1 s0 s1
  refine ⟨_, hr, ?_⟩
  have nxt : ∀ (c0 : ℝ) (n k : ℕ), pixelAt c0 ps n (k + 1) = pixelAt c0 ps n k + ps := by
    intro c0 n k; unfold pixelAt; push_cast; ring
  have col : ∀ X, |X - x| ≤ ps →
      |(1 - t) * f X (pixelAt y0 ps h i) + t * f X (pixelAt y0 ps h (i + 1)) - f X y| ≤ My * ps ^ 2 / 8 := by
    intro X hX
    obtain ⟨f1, f2, hd⟩ := hf.along_y X hX
    have near : ∀ u ∈ Icc (pixelAt y0 ps h i) (pixelAt y0 ps h i + ps), |u - y| ≤ ps := by
      intro u hu
      rw [ey]
      exact abs_le.2 ⟨by nlinarith [hu.1], by nlinarith [hu.2]⟩
    have := chord_error hps (fun u hu => (hd u (near u hu)).1) (fun u hu => (hd u (near u hu)).2.1)
      (fun u hu => (hd u (near u hu)).2.2) t0 t1
    rwa [← ey, ← nxt] at this
  have row : |(1 - s) * f (pixelAt x0 ps w j) y + s * f (pixelAt x0 ps w (j + 1)) y - f x y| ≤ Mx * ps ^ 2 / 8 := by
    obtain ⟨f1, f2, hd⟩ := hf.along_x
    have near : ∀ u ∈ Icc (pixelAt x0 ps w j) (pixelAt x0 ps w j + ps), |u - x| ≤ ps := by
      intro u hu
      rw [ex]
      exact abs_le.2 ⟨by nlinarith [hu.1], by nlinarith [hu.2]⟩
    have := chord_error hps (fun u hu => (hd u (near u hu)).1) (fun u hu => (hd u (near u hu)).2.1)
      (fun u hu => (hd u (near u hu)).2.2) s0 s1
    rwa [← ex, ← nxt] at this
  have c0 := col _ nx
  have c1 := col _ nx'
  simp only [tabSamples]
  generalize f (pixelAt x0 ps w j) y = A at *
  generalize f (pixelAt x0 ps w (j + 1)) y = B at *
  generalize f (pixelAt x0 ps w j) (pixelAt y0 ps h i) = p00 at *
  generalize f (pixelAt x0 ps w (j + 1)) (pixelAt y0 ps h i) = p10 at *
  generalize f (pixelAt x0 ps w j) (pixelAt y0 ps h (i + 1)) = p01 at *
  generalize f (pixelAt x0 ps w (j + 1)) (pixelAt y0 ps h (i + 1)) = p11 at *
  have e : bilinear p00 p10 p01 p11 s t - f x y = (1 - s) * ((1 - t) * p00 + t * p01 - A) +
      s * ((1 - t) * p10 + t * p11 - B) + ((1 - s) * A + s * B - f x y) := by
    unfold bilinear; ring
  rw [e]
  rw [abs_le] at *
  obtain ⟨a1, a2⟩ := c0
  obtain ⟨b1, b2⟩ := c1
  constructor <;> nlinarith

/-! ### Sources and lenses read from a table -/

/-- What a `Pixelated` source is given to stand for `f`. -/
noncomputable def sourceTable (f : ℝ → ℝ → ℝ) (x0 y0 ps : ℝ) (h w : ℕ) : NDArr ℝ := .d2 (tabSamples f x0 y0 ps h w)

/-- What a `PixelatedDeflection` is given to stand for the deflection `α`. -/
noncomputable def lensTable (α : ℝ → ℝ → ℝ × ℝ) (x0 y0 ps : ℝ) (h w : ℕ) : NDArr ℝ :=
  .d3 fun (k : Fin 2) => if k = 0 then tabSamples (fun x y => (α x y).1) x0 y0 ps h w
    else tabSamples (fun x y => (α x y).2) x0 y0 ps h w

theorem lensTable_deflection (α : ℝ → ℝ → ℝ × ℝ) (x0 y0 ps : ℝ) (h w : ℕ) (x y : ℝ) {a b : ℝ}
    (ha : interp2d (tabSamples (fun x y => (α x y).1) x0 y0 ps h w) ((x - x0) / (ps * (w : ℝ)) * 2)
      ((y - y0) / (ps * (h : ℝ)) * 2) "linear" "zeros" = .ok a)
    (hb : interp2d (tabSamples (fun x y => (α x y).2) x0 y0 ps h w) ((x - x0) / (ps * (w : ℝ)) * 2)
      ((y - y0) / (ps * (h : ℝ)) * 2) "linear" "zeros" = .ok b) :
    pixelatedDeflection (lensTable α x0 y0 ps h w) x0 y0 ps x y = .ok (a, b) ∧
      pixelatedDeflectionRaytrace (lensTable α x0 y0 ps h w) x0 y0 ps x y = .ok (x - a, y - b) := by
  have h1 : pixelatedDeflection (lensTable α x0 y0 ps h w) x0 y0 ps x y = .ok (a, b) := by
    simp only [pixelatedDeflection, lensTable, dif_pos (le_refl 2), mul_comm _ ps]
    change (do
      let ax ← interp2d (tabSamples (fun x y => (α x y).1) x0 y0 ps h w) _ _ "linear" "zeros"
      let ay ← interp2d (tabSamples (fun x y => (α x y).2) x0 y0 ps h w) _ _ "linear" "zeros"
      pure (ax, ay)) = _
    rw [ha, hb]
    rfl
  refine ⟨h1, ?_⟩
  unfold pixelatedDeflectionRaytrace
  rw [h1]
  rfl

/-- A `Pixelated` source made from samples of `f` shows `scale * f`: between the outermost pixel centres it is off by no
more than `f` changes within one pixel; in the half pixel border, where it extrapolates, by no more than four times
what `f` changes within one and a half. -/
theorem C104_source {h w : ℕ} (hh : 2 ≤ h) (hw : 2 ≤ w) (f : ℝ → ℝ → ℝ) (x0 y0 scale x y : ℝ) {ps : ℝ} (hps : 0 < ps)
    (E : ℝ) :
    (|x - x0| ≤ ps * (w - 1) / 2 → |y - y0| ≤ ps * (h - 1) / 2 →
      (∀ X Y, |X - x| ≤ ps → |Y - y| ≤ ps → |f X Y - f x y| ≤ E) →
      ∃ r, pixelatedBrightness (sourceTable f x0 y0 ps h w) x0 y0 ps scale x y = .ok r ∧
        |r - f x y * scale| ≤ E * |scale|) ∧
    (|x - x0| ≤ ps * w / 2 → |y - y0| ≤ ps * h / 2 →
      (∀ X Y, |X - x| ≤ 3 / 2 * ps → |Y - y| ≤ 3 / 2 * ps → |f X Y - f x y| ≤ E) →
      ∃ r, pixelatedBrightness (sourceTable f x0 y0 ps h w) x0 y0 ps scale x y = .ok r ∧
        |r - f x y * scale| ≤ 4 * (E * |scale|)) := by
  have key : ∀ X Y, |f X Y - f x y| ≤ E → |f X Y * scale - f x y * scale| ≤ E * |scale| := by
    intro X Y hE
    rw [← sub_mul, abs_mul]
    exact mul_le_mul_of_nonneg_right hE (abs_nonneg _)
  have := table_close hh hw (fun x y => f x y * scale) x0 y0 x y hps
  exact ⟨fun hx hy hE => this.1 hx hy _ _ fun X Y hX hY => key X Y (hE X Y hX hY),
    fun hx hy hE => this.2 hx hy _ _ fun X Y hX hY => key X Y (hE X Y hX hY)⟩

/-- Where the second derivatives of `f` along the axes are at most `Mx` and `My` the error is at most an eighth of
their sum times the square of the pixel size. -/
theorem C104_source_second_order {h w : ℕ} (hh : 2 ≤ h) (hw : 2 ≤ w) (f : ℝ → ℝ → ℝ) (x0 y0 x y : ℝ)
    {ps Mx My : ℝ} (hps : 0 < ps) (hx : |x - x0| ≤ ps * (w - 1) / 2) (hy : |y - y0| ≤ ps * (h - 1) / 2)
    (hf : Curved f ps x y Mx My) :
    ∃ r, pixelatedBrightness (sourceTable f x0 y0 ps h w) x0 y0 ps 1 x y = .ok r ∧
      |r - f x y| ≤ (Mx + My) * ps ^ 2 / 8 := by
  have := table_curved hh hw f x0 y0 x y hps hx hy hf
  simpa only [pixelatedBrightness, sourceTable, mul_one] using this

/-- A `PixelatedDeflection` made from samples of the deflection `α` of any lens: deflection and traced ray are as close
to those of the lens. -/
theorem C104_lens {h w : ℕ} (hh : 2 ≤ h) (hw : 2 ≤ w) (α : ℝ → ℝ → ℝ × ℝ) (x0 y0 x y : ℝ) {ps : ℝ} (hps : 0 < ps)
    (E : ℝ) :
    (|x - x0| ≤ ps * (w - 1) / 2 → |y - y0| ≤ ps * (h - 1) / 2 →
      (∀ X Y, |X - x| ≤ ps → |Y - y| ≤ ps → |(α X Y).1 - (α x y).1| ≤ E ∧ |(α X Y).2 - (α x y).2| ≤ E) →
      ∃ a b, pixelatedDeflection (lensTable α x0 y0 ps h w) x0 y0 ps x y = .ok a ∧
        |a.1 - (α x y).1| ≤ E ∧ |a.2 - (α x y).2| ≤ E ∧
        pixelatedDeflectionRaytrace (lensTable α x0 y0 ps h w) x0 y0 ps x y = .ok b ∧
        |b.1 - (x - (α x y).1)| ≤ E ∧ |b.2 - (y - (α x y).2)| ≤ E) ∧
    (|x - x0| ≤ ps * w / 2 → |y - y0| ≤ ps * h / 2 →
      (∀ X Y, |X - x| ≤ 3 / 2 * ps → |Y - y| ≤ 3 / 2 * ps →
        |(α X Y).1 - (α x y).1| ≤ E ∧ |(α X Y).2 - (α x y).2| ≤ E) →
      ∃ a b, pixelatedDeflection (lensTable α x0 y0 ps h w) x0 y0 ps x y = .ok a ∧
        |a.1 - (α x y).1| ≤ 4 * E ∧ |a.2 - (α x y).2| ≤ 4 * E ∧
        pixelatedDeflectionRaytrace (lensTable α x0 y0 ps h w) x0 y0 ps x y = .ok b ∧
        |b.1 - (x - (α x y).1)| ≤ 4 * E ∧ |b.2 - (y - (α x y).2)| ≤ 4 * E) := by
  have fin : ∀ {F a b : ℝ}, interp2d (tabSamples (fun x y => (α x y).1) x0 y0 ps h w) ((x - x0) / (ps * (w : ℝ)) * 2)
      ((y - y0) / (ps * (h : ℝ)) * 2) "linear" "zeros" = .ok a →
      interp2d (tabSamples (fun x y => (α x y).2) x0 y0 ps h w) ((x - x0) / (ps * (w : ℝ)) * 2)
      ((y - y0) / (ps * (h : ℝ)) * 2) "linear" "zeros" = .ok b → |a - (α x y).1| ≤ F → |b - (α x y).2| ≤ F →
      ∃ a b, pixelatedDeflection (lensTable α x0 y0 ps h w) x0 y0 ps x y = .ok a ∧
        |a.1 - (α x y).1| ≤ F ∧ |a.2 - (α x y).2| ≤ F ∧
        pixelatedDeflectionRaytrace (lensTable α x0 y0 ps h w) x0 y0 ps x y = .ok b ∧
        |b.1 - (x - (α x y).1)| ≤ F ∧ |b.2 - (y - (α x y).2)| ≤ F := by
    intro F a b ha hb ea eb
    obtain ⟨h1, h2⟩ := lensTable_deflection α x0 y0 ps h w x y ha hb
    refine ⟨_, _, h1, ea, eb, h2, ?_, ?_⟩
    · rw [show x - a - (x - (α x y).1) = -(a - (α x y).1) by ring, abs_neg]; exact ea
    · rw [show y - b - (y - (α x y).2) = -(b - (α x y).2) by ring, abs_neg]; exact eb
  have t1 := table_close hh hw (fun x y => (α x y).1) x0 y0 x y hps
  have t2 := table_close hh hw (fun x y => (α x y).2) x0 y0 x y hps
  constructor
  · intro hx hy hE
    obtain ⟨a, ha, ea⟩ := t1.1 hx hy (α x y).1 E fun X Y hX hY => (hE X Y hX hY).1
    obtain ⟨b, hb, eb⟩ := t2.1 hx hy (α x y).2 E fun X Y hX hY => (hE X Y hX hY).2
    exact fin ha hb ea eb
  · intro hx hy hE
    obtain ⟨a, ha, ea⟩ := t1.2 hx hy (α x y).1 E fun X Y hX hY => (hE X Y hX hY).1
    obtain ⟨b, hb, eb⟩ := t2.2 hx hy (α x y).2 E fun X Y hX hY => (hE X Y hX hY).2
    exact fin ha hb ea eb

/-- The same to second order where the deflection is twice differentiable. -/
theorem C104_lens_second_order {h w : ℕ} (hh : 2 ≤ h) (hw : 2 ≤ w) (α : ℝ → ℝ → ℝ × ℝ) (x0 y0 x y : ℝ)
    {ps Mx My : ℝ} (hps : 0 < ps) (hx : |x - x0| ≤ ps * (w - 1) / 2) (hy : |y - y0| ≤ ps * (h - 1) / 2)
    (h1 : Curved (fun x y => (α x y).1) ps x y Mx My) (h2 : Curved (fun x y => (α x y).2) ps x y Mx My) :
    ∃ b, pixelatedDeflectionRaytrace (lensTable α x0 y0 ps h w) x0 y0 ps x y = .ok b ∧
      |b.1 - (x - (α x y).1)| ≤ (Mx + My) * ps ^ 2 / 8 ∧ |b.2 - (y - (α x y).2)| ≤ (Mx + My) * ps ^ 2 / 8 := by
  obtain ⟨a, ha, ea⟩ := table_curved hh hw _ x0 y0 x y hps hx hy h1
  obtain ⟨b, hb, eb⟩ := table_curved hh hw _ x0 y0 x y hps hx hy h2
  refine ⟨_, (lensTable_deflection α x0 y0 ps h w x y ha hb).2, ?_, ?_⟩
  · rw [show x - a - (x - (α x y).1) = -(a - (α x y).1) by ring, abs_neg]; exact ea
  · rw [show y - b - (y - (α x y).2) = -(b - (α x y).2) by ring, abs_neg]; exact eb

/-- Tables of lens and source together.  The ray through the table of `α` at a point `p` where `α` is continuous,
evaluated in the table of `f`, which is continuous at the source position `β`, gives the surface brightness `scale f β`
to any accuracy, whatever the sizes of the two tables and wherever they are centred, provided they cover the two
points and are fine enough. -/
theorem C104_lensed_image (α : ℝ → ℝ → ℝ × ℝ) (f : ℝ → ℝ → ℝ) (scale : ℝ) (p : ℝ × ℝ)
    (hα : ContinuousAt (fun q : ℝ × ℝ => α q.1 q.2) p)
    (hf : ContinuousAt (fun q : ℝ × ℝ => f q.1 q.2) (p.1 - (α p.1 p.2).1, p.2 - (α p.1 p.2).2)) {ε : ℝ} (hε : 0 < ε) :
    ∃ δ > 0, ∀ (x0 y0 ps u0 v0 ps' : ℝ) (h w h' w' : ℕ), 0 < ps → ps < δ → 0 < ps' → ps' < δ →
      2 ≤ h → 2 ≤ w → 2 ≤ h' → 2 ≤ w' → |p.1 - x0| ≤ ps * w / 2 → |p.2 - y0| ≤ ps * h / 2 →
      |p.1 - (α p.1 p.2).1 - u0| + ε ≤ ps' * w' / 2 → |p.2 - (α p.1 p.2).2 - v0| + ε ≤ ps' * h' / 2 →
      ∃ b r, pixelatedDeflectionRaytrace (lensTable α x0 y0 ps h w) x0 y0 ps p.1 p.2 = .ok b ∧
        |b.1 - (p.1 - (α p.1 p.2).1)| < ε ∧ |b.2 - (p.2 - (α p.1 p.2).2)| < ε ∧
        pixelatedBrightness (sourceTable f u0 v0 ps' h' w') u0 v0 ps' scale b.1 b.2 = .ok r ∧
        |r - f (p.1 - (α p.1 p.2).1) (p.2 - (α p.1 p.2).2) * scale| < ε := by
  set β1 := p.1 - (α p.1 p.2).1 with hβ1
  set β2 := p.2 - (α p.1 p.2).2 with hβ2
  -- source
  have hη : 0 < ε / (8 * (|scale| + 1)) := by positivity
  obtain ⟨d, hd, hfd⟩ := Metric.continuousAt_iff.1 hf _ hη
  -- lens
  obtain ⟨c, hc, hαc⟩ := Metric.continuousAt_iff.1 hα (min (d / 16) (ε / 8)) (by positivity)
  refine ⟨min (c / 2) (d / 4), by positivity, ?_⟩
  intro x0 y0 ps u0 v0 ps' h w h' w' hps hps2 hps' hps2' hh hw hh' hw' hx hy hu hv
  have p1 : ps < c / 2 := hps2.trans_le (min_le_left _ _)
  have p2 : ps' < d / 4 := hps2'.trans_le (min_le_right _ _)
  obtain ⟨-, b, -, -, -, hb, e1, e2⟩ := (C104_lens hh hw α x0 y0 p.1 p.2 hps (min (d / 16) (ε / 8))).2 hx hy (by
    intro X Y hX hY
    have hdist : dist ((X, Y) : ℝ × ℝ) p < c := by
      rw [Prod.dist_eq, Real.dist_eq, Real.dist_eq]
      exact max_lt (by change |X - p.1| < c; linarith) (by change |Y - p.2| < c; linarith)
    have := hαc hdist
    rw [Prod.dist_eq, max_lt_iff, Real.dist_eq, Real.dist_eq] at this
    exact ⟨this.1.le, this.2.le⟩)
  rw [← hβ1] at e1
  rw [← hβ2] at e2
  have m1 : 4 * min (d / 16) (ε / 8) ≤ d / 4 := by linarith [min_le_left (d / 16) (ε / 8)]
  have m2 : 4 * min (d / 16) (ε / 8) ≤ ε / 2 := by linarith [min_le_right (d / 16) (ε / 8)]
  have key := (table_close hh' hw' (fun x y => f x y * scale) u0 v0 b.1 b.2 hps').2
    (by have := abs_sub_le b.1 β1 u0; linarith) (by have := abs_sub_le b.2 β2 v0; linarith)
    (f β1 β2 * scale) (ε / 8) (by
      intro X Y hX hY
      have hdist : dist ((X, Y) : ℝ × ℝ) (β1, β2) < d := by
        rw [Prod.dist_eq, Real.dist_eq, Real.dist_eq]
        refine max_lt ?_ ?_
        · change |X - β1| < d
          have := abs_sub_le X b.1 β1
          linarith
        · change |Y - β2| < d
          have := abs_sub_le Y b.2 β2
          linarith
      have := hfd hdist
      rw [Real.dist_eq] at this
      rw [← sub_mul, abs_mul]
      have h3 : |f X Y - f β1 β2| * |scale| ≤ ε / (8 * (|scale| + 1)) * (|scale| + 1) :=
        mul_le_mul this.le (by linarith) (abs_nonneg _) hη.le
      refine h3.trans (le_of_eq ?_)
      have : |scale| + 1 ≠ 0 := by positivity
      field_simp)
  obtain ⟨r, hr, er⟩ := key
  exact ⟨b, r, hb, by linarith, by linarith, hr, by linarith⟩

/-! ### Examples -/

/-- A paraboloid is off by at most half the squared pixel size ... -/
example {h w : ℕ} (hh : 2 ≤ h) (hw : 2 ≤ w) (x0 y0 x y : ℝ) {ps : ℝ} (hps : 0 < ps)
    (hx : |x - x0| ≤ ps * (w - 1) / 2) (hy : |y - y0| ≤ ps * (h - 1) / 2) :
    ∃ r, pixelatedBrightness (sourceTable (fun x y => x ^ 2 + y ^ 2) x0 y0 ps h w) x0 y0 ps 1 x y = .ok r ∧
      |r - (x ^ 2 + y ^ 2)| ≤ (2 + 2) * ps ^ 2 / 8 := by
  have d : ∀ c t : ℝ, HasDerivAt (fun t : ℝ => t ^ 2 + c) (2 * t) t := fun c t => by
    simpa using (hasDerivAt_pow 2 t).add_const c
  have d' : ∀ c t : ℝ, HasDerivAt (fun t : ℝ => c + t ^ 2) (2 * t) t := fun c t => by
    simpa using (hasDerivAt_pow 2 t).const_add c
  have d2 : ∀ t : ℝ, HasDerivAt (fun t : ℝ => 2 * t) 2 t := fun t => by
    simpa using (hasDerivAt_id t).const_mul 2
  exact C104_source_second_order hh hw _ x0 y0 x y hps hx hy
    ⟨⟨fun t => 2 * t, fun _ => 2, fun t _ => ⟨d _ t, d2 t, by norm_num⟩⟩,
      fun X _ => ⟨fun t => 2 * t, fun _ => 2, fun t _ => ⟨d' _ t, d2 t, by norm_num⟩⟩⟩

/-- ... and by exactly that in the middle of four samples: 1/2 is read at the origin from samples a unit apart. -/
example : pixelatedBrightness (.d2 fun (i j : Fin 2) =>
    (((j : ℕ) : ℚ) - 1 / 2) ^ 2 + (((i : ℕ) : ℚ) - 1 / 2) ^ 2) 0 0 1 1 0 0 = .ok (1 / 2) := by decide +kernel

/-- In the border the factor four is reached: samples off by 1 with alternating signs are read as 4 at the corner. -/
example : pixelatedBrightness (.d2 fun (i j : Fin 2) => if i = j then (1 : ℚ) else -1) 0 0 1 1 1 1 = .ok 4 := by
  decide +kernel

/-- A Gaussian source behind a tabulated point mass, seen two Einstein radii from the mass. -/
example : ∃ δ > 0, ∀ (x0 y0 ps u0 v0 ps' : ℝ) (h w h' w' : ℕ), 0 < ps → ps < δ → 0 < ps' → ps' < δ →
      2 ≤ h → 2 ≤ w → 2 ≤ h' → 2 ≤ w' → |2 - x0| ≤ ps * w / 2 → |0 - y0| ≤ ps * h / 2 →
      |3 / 2 - u0| + 1 / 100 ≤ ps' * w' / 2 → |0 - v0| + 1 / 100 ≤ ps' * h' / 2 →
      ∃ b r, pixelatedDeflectionRaytrace (lensTable (pointDeflection 0 0 1 0) x0 y0 ps h w) x0 y0 ps 2 0 = .ok b ∧
        |b.1 - 3 / 2| < 1 / 100 ∧ |b.2 - 0| < 1 / 100 ∧
        pixelatedBrightness (sourceTable (fun x y => Real.exp (-(x ^ 2 + y ^ 2))) u0 v0 ps' h' w') u0 v0 ps' 5 b.1 b.2
          = .ok r ∧ |r - Real.exp (-((3 / 2) ^ 2 + 0 ^ 2)) * 5| < 1 / 100 := by
  have hα : ContinuousAt (fun q : ℝ × ℝ => pointDeflection 0 0 1 0 q.1 q.2) (2, 0) := by
    have hj := exPoint_hasJac (x := 2) (y := 0) (Or.inl (by norm_num))
    exact ContinuousAt.prodMk (HasFDerivAt.continuousAt (show HasFDerivAt _ _ ((2 : ℝ), (0 : ℝ)) from hj.1))
      (HasFDerivAt.continuousAt (show HasFDerivAt _ _ ((2 : ℝ), (0 : ℝ)) from hj.2))
  have hv : pointDeflection 0 0 1 0 2 0 = (1 / 2, 0) := by
    have : √((2 : ℝ) ^ 2) = 2 := Real.sqrt_sq (by norm_num)
    simp only [pointDeflection, translateRotate]
    norm_num [this]
  have := C104_lensed_image (pointDeflection 0 0 1 0) (fun x y => Real.exp (-(x ^ 2 + y ^ 2))) 5 (2, 0) hα
    (Continuous.continuousAt (by fun_prop)) (ε := 1 / 100) (by norm_num)
  simp only [hv] at this
  norm_num only at this ⊢
  exact this

end Caustics

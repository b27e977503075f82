import Verif.Props.FieldOfView
import Verif.Props.Tabulated
import Verif.Props.PixConv

/-! C128 for the lenses given by a function or a table: `EnclosedMass`, `PixelatedDeflection` and the maps of
`PixelatedConvergence`. -/

namespace Caustics

open Real

/-- `EnclosedMass` with a bounded mass function: outside any circle of radius `rho` it deflects by no more than a point
mass of the bound would at that radius, up to the axis ratio to the power three halves. -/
theorem C128_enclosed_mass (Gc2 x0 y0 q phi s A rho : ℝ) (M : ℝ → ℝ) (hG : 0 ≤ Gc2) (hq : 0 < q) (hq1 : q ≤ 1) (hs : 0 ≤ s)
    (hM : ∀ r, 0 < r → |M r| ≤ A) (hrho : 0 < rho) :
    Reach (enclosedDeflection Gc2 x0 y0 q phi M s) (x0, y0) rho (4 * Gc2 * A / (√q ^ 3 * rho ^ 2)) 0 := by
  intro p hp
  have hp : rho ≤ len2 (p.1 - x0, p.2 - y0) := hp
  rw [zero_mul, add_zero]
  have hrot : ∀ a b : ℝ, len2 (derotate a b (some phi)) = len2 (a, b) := by
    intro a b
    simp only [len2, derotate]
    congr 1
    linear_combination (a ^ 2 + b ^ 2) * (sin_sq_add_cos_sq phi)
  obtain ⟨u, hu⟩ : ∃ u, u = translateRotate p.1 p.2 x0 y0 (some phi) := ⟨_, rfl⟩
  have hlen : u.1 ^ 2 + u.2 ^ 2 = (p.1 - x0) ^ 2 + (p.2 - y0) ^ 2 := by
    rw [hu]
    simp only [translateRotate]
    linear_combination ((p.1 - x0) ^ 2 + (p.2 - y0) ^ 2) * (sin_sq_add_cos_sq phi)
  have hrho2 : rho ^ 2 ≤ u.1 ^ 2 + u.2 ^ 2 := by
    rw [hlen]
    have h := pow_le_pow_left₀ hrho.le hp 2
    rw [len2, sq_sqrt (by positivity)] at h
    exact h
  have e : len2 (enclosedDeflection Gc2 x0 y0 q phi M s p.1 p.2) =
      len2 (4 * Gc2 * M (√(u.1 ^ 2 / q + q * u.2 ^ 2) + s) / (√(u.1 ^ 2 / q + q * u.2 ^ 2) + s) ^ 2 * u.1 /
          (q * (√(u.1 ^ 2 / q + q * u.2 ^ 2) + s)),
        4 * Gc2 * M (√(u.1 ^ 2 / q + q * u.2 ^ 2) + s) / (√(u.1 ^ 2 / q + q * u.2 ^ 2) + s) ^ 2 * u.2 * q /
          (√(u.1 ^ 2 / q + q * u.2 ^ 2) + s)) := by
    simp only [enclosedDeflection, ← hu]
    exact hrot _ _
  rw [e]
  have hw0 : 0 < u.1 ^ 2 / q + q * u.2 ^ 2 := by
    have h1 : q * u.1 ^ 2 ≤ u.1 ^ 2 / q := by
      rw [le_div_iff₀ hq]; nlinarith [sq_nonneg u.1, mul_le_one₀ hq1 hq.le hq1]
    nlinarith [mul_le_mul_of_nonneg_left hrho2 hq.le, pow_pos hrho 2, mul_pos hq (pow_pos hrho 2)]
  have hr0sq : q * rho ^ 2 ≤ u.1 ^ 2 / q + q * u.2 ^ 2 := by
    have h1 : q * u.1 ^ 2 ≤ u.1 ^ 2 / q := by
      rw [le_div_iff₀ hq]; nlinarith [sq_nonneg u.1, mul_le_one₀ hq1 hq.le hq1]
    nlinarith [mul_le_mul_of_nonneg_left hrho2 hq.le]
  obtain ⟨r0, hr0⟩ : ∃ r, r = √(u.1 ^ 2 / q + q * u.2 ^ 2) := ⟨_, rfl⟩
  have hr0p : 0 < r0 := by rw [hr0]; exact sqrt_pos.2 hw0
  have hr0s : r0 ^ 2 = u.1 ^ 2 / q + q * u.2 ^ 2 := by rw [hr0, sq_sqrt hw0.le]
  rw [← hr0]
  obtain ⟨r, hr⟩ : ∃ r, r = r0 + s := ⟨_, rfl⟩
  have hrp : 0 < r := by linarith
  have hr0r : r0 ≤ r := by linarith
  rw [← hr]
  have hA : 0 ≤ A := (abs_nonneg _).trans (hM 1 one_pos)
  have hsq : 0 < √q := sqrt_pos.2 hq
  have hsq2 : √q ^ 2 = q := sq_sqrt hq.le
  -- the vector
  have hv : (u.1 / q) ^ 2 + (u.2 * q) ^ 2 ≤ r ^ 2 / q := by
    have h2 : (u.2 * q) ^ 2 ≤ q * u.2 ^ 2 / q := by
      rw [le_div_iff₀ hq]
      nlinarith [sq_nonneg u.2, mul_nonneg hq.le (sq_nonneg u.2), pow_le_one₀ hq.le hq1 (n := 3),
        mul_nonneg hq.le (mul_nonneg (sq_nonneg u.2) (sub_nonneg.2 (pow_le_one₀ hq.le hq1 (n := 2))))]
    have h3 : (u.1 / q) ^ 2 = u.1 ^ 2 / q / q := by field_simp
    calc _ ≤ u.1 ^ 2 / q / q + q * u.2 ^ 2 / q := by rw [h3]; gcongr
      _ = r0 ^ 2 / q := by rw [hr0s]; ring
      _ ≤ r ^ 2 / q := by gcongr
  have hlenv : len2 (4 * Gc2 * M r / r ^ 2 * u.1 / (q * r), 4 * Gc2 * M r / r ^ 2 * u.2 * q / r) ≤
      4 * Gc2 * A / r ^ 2 / √q := by
    refine (sqrt_le_sqrt (y := (4 * Gc2 * A / r ^ 2 / √q) ^ 2) ?_).trans (by rw [sqrt_sq (by positivity)])
    have e2 : (4 * Gc2 * M r / r ^ 2 * u.1 / (q * r)) ^ 2 + (4 * Gc2 * M r / r ^ 2 * u.2 * q / r) ^ 2 =
        (4 * Gc2 * M r / r ^ 2 / r) ^ 2 * ((u.1 / q) ^ 2 + (u.2 * q) ^ 2) := by
      field_simp
    rw [e2]
    have hMr : (M r) ^ 2 ≤ A ^ 2 := sq_le_sq' (by linarith [(abs_le.1 (hM r hrp)).1]) (abs_le.1 (hM r hrp)).2
    have e3 : (4 * Gc2 * A / r ^ 2 / √q) ^ 2 = (4 * Gc2 / r ^ 2 / r) ^ 2 * A ^ 2 * (r ^ 2 / q) := by
      rw [div_pow _ (√q), hsq2]; field_simp
    have e4 : (4 * Gc2 * M r / r ^ 2 / r) ^ 2 = (4 * Gc2 / r ^ 2 / r) ^ 2 * M r ^ 2 := by ring
    rw [e3, e4]
    gcongr
  refine hlenv.trans ?_
  have hrr : q * rho ^ 2 ≤ r ^ 2 := hr0sq.trans (by rw [← hr0s]; gcongr)
  rw [div_div]
  refine div_le_div_of_nonneg_left (by positivity) (by positivity) ?_
  calc √q ^ 3 * rho ^ 2 = √q ^ 2 * rho ^ 2 * √q := by ring
    _ = q * rho ^ 2 * √q := by rw [hsq2]
    _ ≤ r ^ 2 * √q := by gcongr

/-- Reading a table: nothing outside its frame, and nowhere more than four times its largest entry (the border half pixel
is extrapolated). -/
theorem interp2d_reach {h w : ℕ} (hh : 2 ≤ h) (hw : 2 ≤ w) (im : Fin h → Fin w → ℝ) {A : ℝ} (hA : ∀ i j, |im i j| ≤ A)
    (x0 y0 x y : ℝ) {ps : ℝ} (hps : 0 < ps) :
    ∃ r, interp2d im ((x - x0) / (ps * (w : ℝ)) * 2) ((y - y0) / (ps * (h : ℝ)) * 2) "linear" "zeros" = .ok r ∧
      |r| ≤ 4 * A ∧ (ps * w / 2 < |x - x0| ∨ ps * h / 2 < |y - y0| → r = 0) := by
  have hA0 : 0 ≤ A := (abs_nonneg _).trans (hA ⟨0, by omega⟩ ⟨0, by omega⟩)
  by_cases hout : ps * w / 2 < |x - x0| ∨ ps * h / 2 < |y - y0|
  · refine ⟨0, ?_, by simpa using hA0, fun _ => rfl⟩
    refine C09_zeros (by omega) (by omega) _ _ _ "linear" (Or.inr rfl) ?_
    have fw := frame_le (K := ℝ) (n := w) (ps := ps) (d := x - x0) hps (by omega)
    have fh := frame_le (K := ℝ) (n := h) (ps := ps) (d := y - y0) hps (by omega)
    rcases hout with h1 | h1 <;> rcases lt_abs.mp h1 with h2 | h2
    · exact Or.inr (Or.inl (fw.1.mpr h2))
    · exact Or.inl (fw.2.mpr (by linarith))
    · exact Or.inr (Or.inr (Or.inr (fh.1.mpr h2)))
    · exact Or.inr (Or.inr (Or.inl (fh.2.mpr (by linarith))))
  · have h1 := hout
    push Not at h1
    obtain ⟨i, j, hi, hj, s, t, e, -, -, s1, s2, t1, t2, -⟩ := interp2d_rect hh hw im x0 y0 x y hps h1.1 h1.2
    refine ⟨_, e, ?_, fun hc => absurd hc hout⟩
    have hb := bilinear_error (v := 0) (E := A) (s := s) (t := t)
      (by simpa using hA ⟨i, by omega⟩ ⟨j, by omega⟩) (by simpa using hA ⟨i, by omega⟩ ⟨j + 1, hj⟩)
      (by simpa using hA ⟨i + 1, hi⟩ ⟨j, by omega⟩) (by simpa using hA ⟨i + 1, hi⟩ ⟨j + 1, hj⟩)
    rw [sub_zero] at hb
    refine hb.trans ?_
    have w1 := weights_border s1 s2
    have w2 := weights_border t1 t2
    have n1 : 0 ≤ |1 - s| + |s| := by positivity
    have n2 : 0 ≤ |1 - t| + |t| := by positivity
    nlinarith [mul_le_mul w1 w2 n2 (by norm_num : (0 : ℝ) ≤ 2)]

private theorem len2_four {a b A : ℝ} (ha : |a| ≤ 4 * A) (hb : |b| ≤ 4 * A) : len2 (a, b) ≤ 6 * A := by
  have h0 : 0 ≤ A := by linarith [abs_nonneg a]
  rw [len2]
  refine (sqrt_le_sqrt (y := (6 * A) ^ 2) ?_).trans (by rw [sqrt_sq (by positivity)])
  have h1 := sq_le_sq' (by linarith [(abs_le.1 ha).1]) (abs_le.1 ha).2
  have h2 := sq_le_sq' (by linarith [(abs_le.1 hb).1]) (abs_le.1 hb).2
  simp only
  nlinarith

/-- `PixelatedDeflection`: an image of `b` is `b` itself, undeflected, or it is in the frame of the table and no further from
`b` than six times the largest entry. -/
theorem C128_pixelated_deflection {h w : ℕ} (hh : 2 ≤ h) (hw : 2 ≤ w) (m : Fin 2 → Fin h → Fin w → ℝ) {A : ℝ}
    (hA : ∀ k i j, |m k i j| ≤ A) (x0 y0 : ℝ) {ps : ℝ} (hps : 0 < ps) (p b : ℝ × ℝ)
    (himg : pixelatedDeflectionRaytrace (.d3 m) x0 y0 ps p.1 p.2 = .ok b) :
    p = b ∨ (|p.1 - x0| ≤ ps * w / 2 ∧ |p.2 - y0| ≤ ps * h / 2 ∧ len2 (p - b) ≤ 6 * A) := by
  obtain ⟨r, e1, b1, z1⟩ := interp2d_reach hh hw (m 0) (hA 0) x0 y0 p.1 p.2 hps
  obtain ⟨r', e2, b2, z2⟩ := interp2d_reach hh hw (m 1) (hA 1) x0 y0 p.1 p.2 hps
  have hd : pixelatedDeflection (.d3 m) x0 y0 ps p.1 p.2 = .ok (r, r') := by
    simp only [pixelatedDeflection, dif_pos (le_refl 2), mul_comm (w : ℝ) ps, mul_comm (h : ℝ) ps]
    have e1' : interp2d (m ⟨0, by omega⟩) ((p.1 - x0) / (ps * (w : ℝ)) * 2) ((p.2 - y0) / (ps * (h : ℝ)) * 2) "linear"
      "zeros" = .ok r := e1
    have e2' : interp2d (m ⟨1, by omega⟩) ((p.1 - x0) / (ps * (w : ℝ)) * 2) ((p.2 - y0) / (ps * (h : ℝ)) * 2) "linear"
      "zeros" = .ok r' := e2
    rw [e1', e2']
    rfl
  rw [pixelatedDeflectionRaytrace, hd] at himg
  simp only [bind, Except.bind, pure, Except.pure, Except.ok.injEq] at himg
  by_cases hout : ps * w / 2 < |p.1 - x0| ∨ ps * h / 2 < |p.2 - y0|
  · left
    rw [z1 hout, z2 hout, sub_zero, sub_zero] at himg
    exact himg
  · right
    push Not at hout
    refine ⟨hout.1, hout.2, ?_⟩
    have : p - b = (r, r') := by
      rw [← himg]; exact Prod.ext (by simp) (by simp)
    rw [this]
    exact len2_four b1 b2

private theorem half_le (k : ℤ) : 1 / 2 ≤ |(k : ℝ) + 1 / 2| := by
  rcases le_or_gt 0 k with h | h
  · have : (0 : ℝ) ≤ k := by exact_mod_cast h
    rw [abs_of_pos (by linarith)]; linarith
  · have : (k : ℝ) ≤ -1 := by exact_mod_cast (by omega : k ≤ -1)
    rw [abs_of_neg (by linarith)]; linarith

/-- The kernels at the positions where they are evaluated, half a pixel off the pixel centres. -/
private theorem kernel_le {ps : ℝ} (hps : 0 < ps) (n i j a b : ℕ) :
    |(pixPos ps n j + ps / 2 - pixPos ps n b) / ((pixPos ps n j + ps / 2 - pixPos ps n b) ^ 2 +
      (pixPos ps n i + ps / 2 - pixPos ps n a) ^ 2)| ≤ 1 / ps ∧
    |(pixPos ps n i + ps / 2 - pixPos ps n a) / ((pixPos ps n j + ps / 2 - pixPos ps n b) ^ 2 +
      (pixPos ps n i + ps / 2 - pixPos ps n a) ^ 2)| ≤ 1 / ps := by
  have pos : ∀ k l : ℕ, ps / 2 ≤ |pixPos ps n k + ps / 2 - pixPos ps n l| := by
    intro k l
    have e : pixPos ps n k + ps / 2 - pixPos ps n l = ps * ((((k : ℤ) - l : ℤ) : ℝ) + 1 / 2) := by
      unfold pixPos; push_cast; ring
    rw [e, abs_mul, abs_of_pos hps]
    have := mul_le_mul_of_nonneg_left (half_le ((k : ℤ) - l)) hps.le
    linarith
  have h1 := pos j b
  have h2 := pos i a
  generalize pixPos ps n j + ps / 2 - pixPos ps n b = X at *
  generalize pixPos ps n i + ps / 2 - pixPos ps n a = Y at *
  have hX : 0 < |X| := by linarith
  have hY : 0 < |Y| := by linarith
  have hd : 0 < X ^ 2 + Y ^ 2 := by have := abs_pos.1 hX; positivity
  have hd2 : 2 * |X| * |Y| ≤ X ^ 2 + Y ^ 2 := by
    nlinarith [sq_nonneg (|X| - |Y|), sq_abs X, sq_abs Y]
  constructor
  · rw [abs_div, abs_of_pos hd, div_le_div_iff₀ hd hps]
    nlinarith [mul_le_mul_of_nonneg_left h2 hX.le]
  · rw [abs_div, abs_of_pos hd, div_le_div_iff₀ hd hps]
    nlinarith [mul_le_mul_of_nonneg_left h1 hY.le]

/-- `PixelatedConvergence` in `fft` mode: beyond the frame of the map nothing is deflected, and no ray by more than
six times pixel scale over π times the sum of the absolute pixel values. -/
theorem C128_pixelated_convergence {fast : ℕ → ℕ} {ps : ℝ} (hps : 0 < ps) {n : ℕ} (hn : 2 ≤ n) (hf : fast (2 * n) = 2 * n)
    {κ : Img} (hh : κ.h = n) (hw : κ.w = n) (window scale x0 y0 : ℝ) :
    ∃ l, PixLens.new fast ps n n "fft" "zero" window = .ok l ∧ ∀ x y, ∃ a,
      l.deflection fast x y x0 y0 κ scale = .ok a ∧
      len2 a ≤ 6 * (ps / π * ∑ i ∈ Finset.range n, ∑ j ∈ Finset.range n, |(κ.scale scale).at' i j|) ∧
      (ps * n / 2 < |x - x0| ∨ ps * n / 2 < |y - y0| → a = (0, 0)) := by
  refine ⟨_, new_fft fast ps n window, fun x y => ?_⟩
  obtain ⟨A, hA⟩ : ∃ A, A = ps / π * ∑ i ∈ Finset.range n, ∑ j ∈ Finset.range n, |(κ.scale scale).at' i j| := ⟨_, rfl⟩
  rw [← hA]
  have hpi := pi_pos
  have bound : ∀ φ : ℕ → ℕ → ℝ, (∀ a b, |φ a b| ≤ 1 / ps) →
      |ps ^ 2 / π * ∑ a ∈ Finset.range n, ∑ b ∈ Finset.range n, (κ.scale scale).at' a b * φ a b| ≤ A := by
    intro φ hφ
    rw [abs_mul, abs_of_pos (by positivity), hA, show ps / π = ps ^ 2 / π * (1 / ps) by field_simp, mul_assoc]
    refine mul_le_mul_of_nonneg_left ?_ (by positivity)
    rw [Finset.mul_sum]
    refine (Finset.abs_sum_le_sum_abs _ _).trans (Finset.sum_le_sum fun a _ => ?_)
    rw [Finset.mul_sum]
    refine (Finset.abs_sum_le_sum_abs _ _).trans (Finset.sum_le_sum fun b _ => ?_)
    rw [abs_mul, mul_comm]
    exact mul_le_mul_of_nonneg_right (hφ a b) (abs_nonneg _)
  have rd : ∀ m : Img, m.h = n → m.w = n → (∀ i j, i < n → j < n → |m.at' i j| ≤ A) →
      ∃ r, readMap m x0 y0 (n * ps) x y = .ok r ∧ |r| ≤ 4 * A ∧
        (ps * n / 2 < |x - x0| ∨ ps * n / 2 < |y - y0| → r = 0) := by
    intro m h1 h2 hb
    obtain ⟨r, e, b, z⟩ := interp2d_reach (h := m.h) (w := m.w) (by omega) (by omega) m.toFin
      (fun i j => hb i j (by rw [← h1]; exact i.isLt) (by rw [← h2]; exact j.isLt)) x0 y0 x y hps
    refine ⟨r, ?_, b, fun h => z ?_⟩
    · rw [← e, readMap]
      have hc : ∀ (k : ℕ) (d : ℝ), k = n → d / ((n : ℝ) * ps / 2) = d / (ps * (k : ℝ)) * 2 := by
        intro k d hk
        rw [hk]
        have : (0 : ℝ) < n := by exact_mod_cast (by omega : 0 < n)
        have : (n : ℝ) * ps ≠ 0 := by positivity
        field_simp
      rw [hc m.w (x - x0) h2, hc m.h (y - y0) h1]
    · rw [h1, h2]; exact h
  obtain ⟨mx, hmx, hxh, hxw, hxv⟩ := fft_map (fast := fast) (κ := κ.scale scale) (isKernel_x ps n) (by omega) hf hh hw
  obtain ⟨my, hmy, hyh, hyw, hyv⟩ := fft_map (fast := fast) (κ := κ.scale scale) (isKernel_y ps n) (by omega) hf hh hw
  obtain ⟨r, e1, b1, z1⟩ := rd mx hxh hxw fun i j hi hj => by
    rw [hxv i j hi hj]
    exact bound _ fun a b => (kernel_le hps n i j a b).1
  obtain ⟨r', e2, b2, z2⟩ := rd my hyh hyw fun i j hi hj => by
    rw [hyv i j hi hj]
    exact bound _ fun a b => (kernel_le hps n i j a b).2
  refine ⟨(r, r'), ?_, len2_four b1 b2, fun h => by rw [z1 h, z2 h]⟩
  simp only [PixLens.deflection, deflectionPixConv, hmx, hmy, bind, Except.bind, e1, e2, pure, Except.pure]

/-- A table of two by three pixels with entries up to 1/10: every image of a source is within 0.6 of it. -/
example (p b : ℝ × ℝ)
    (himg : pixelatedDeflectionRaytrace (.d3 (d := 2) (h := 2) (w := 3) fun k i j => if k = 0 then (i : ℝ) / 10 else -(j : ℝ) / 20)
      0 0 1 p.1 p.2 = .ok b) : p = b ∨ (|p.1 - 0| ≤ 1 * (3 : ℕ) / 2 ∧ |p.2 - 0| ≤ 1 * (2 : ℕ) / 2 ∧ len2 (p - b) ≤ 6 * (1 / 10)) := by
  refine C128_pixelated_deflection (by norm_num) (by norm_num) _ (fun k i j => ?_) 0 0 one_pos p b himg
  have hi : ((i : ℕ) : ℝ) ≤ 1 := by exact_mod_cast (by omega : (i : ℕ) ≤ 1)
  have hj : ((j : ℕ) : ℝ) ≤ 2 := by exact_mod_cast (by omega : (j : ℕ) ≤ 2)
  have hi0 : (0 : ℝ) ≤ ((i : ℕ) : ℝ) := Nat.cast_nonneg _
  have hj0 : (0 : ℝ) ≤ ((j : ℕ) : ℝ) := Nat.cast_nonneg _
  split_ifs
  · rw [abs_of_nonneg (by positivity)]; linarith
  · rw [neg_div, abs_neg, abs_of_nonneg (by positivity)]; linarith

/-- A mass function saturating at 1. -/
example : Reach (enclosedDeflection 1 0 0 (1 / 4) 0.3 (fun r => r / (1 + r)) 0) (0, 0) 2 (4 * 1 * 1 / (√(1 / 4) ^ 3 * 2 ^ 2)) 0 :=
  C128_enclosed_mass 1 0 0 (1 / 4) 0.3 0 1 2 _ zero_le_one (by norm_num) (by norm_num) le_rfl
    (fun r hr => by
      rw [abs_of_pos (by positivity), div_le_one (by positivity)]; linarith) (by norm_num)

end Caustics

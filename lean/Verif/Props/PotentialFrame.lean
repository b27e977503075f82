import Verif.Props.Bicubic
import Verif.Props.FieldOfView

/-!
C141: what a potential map does beyond its frame.

The full claim, that the deflection of a `PixelatedPotential` is the gradient of its potential on the whole sky, fails
beyond the frame: positions are clamped to it, so the potential no longer varies outwards but the slope at the edge is
still returned.
-/

namespace Caustics

open Real

/-- The coordinate of the nearest position in the field of view. -/
noncomputable def nearFov (n : ℕ) (ps c x : ℝ) : ℝ := c + max (-((n : ℝ) * ps / 2)) (min (x - c) ((n : ℝ) * ps / 2))

theorem bipos_near {n : ℕ} (hn : 2 ≤ n) {ps c x : ℝ} (hps : 0 < ps) :
    clamp (toPix ((x - c) / ((n : ℝ) * ps) * 2) n) (-(1 / 2)) ((n : ℝ) - 1 / 2)
      = clamp (toPix ((nearFov n ps c x - c) / ((n : ℝ) * ps) * 2) n) (-(1 / 2)) ((n : ℝ) - 1 / 2) := by
  have hn0 : (0 : ℝ) < n := by positivity
  have e : ∀ d : ℝ, toPix (d / ((n : ℝ) * ps) * 2) n = d / ps + ((n : ℝ) - 1) / 2 := by
    intro d; unfold toPix; field_simp; ring
  have hnear : nearFov n ps c x - c = max (-((n : ℝ) * ps / 2)) (min (x - c) ((n : ℝ) * ps / 2)) := by unfold nearFov; ring
  rw [e, e, hnear]
  generalize x - c = d
  have hw : 0 < (n : ℝ) * ps / 2 := by positivity
  unfold clamp
  rcases lt_or_ge d (-((n : ℝ) * ps / 2)) with h1 | h1
  · rw [min_eq_left (a := d) (by linarith), max_eq_left h1.le]
    have a1 : d / ps + ((n : ℝ) - 1) / 2 ≤ -(1 / 2) := by
      rw [← le_sub_iff_add_le, div_le_iff₀ hps]; nlinarith
    have a2 : -((n : ℝ) * ps / 2) / ps + ((n : ℝ) - 1) / 2 = -(1 / 2) := by field_simp; ring
    rw [max_eq_right a1, a2, max_self]
  · rcases le_or_gt d ((n : ℝ) * ps / 2) with h2 | h2
    · rw [min_eq_left h2, max_eq_right h1]
    · rw [min_eq_right h2.le, max_eq_right (a := -((n : ℝ) * ps / 2)) (by linarith)]
      have a1 : (n : ℝ) - 1 / 2 ≤ d / ps + ((n : ℝ) - 1) / 2 := by
        rw [← sub_le_iff_le_add, le_div_iff₀ hps]; nlinarith
      have a2 : (n : ℝ) * ps / 2 / ps + ((n : ℝ) - 1) / 2 = (n : ℝ) - 1 / 2 := by field_simp; ring
      rw [a2, min_eq_right (a1.trans (le_max_left _ _)), min_eq_right (le_max_left _ _)]

/-- C141: beyond the frame a potential map returns what it returns at the nearest position of its field of view. -/
theorem C141_nearest {h w : ℕ} (hh : 2 ≤ h) (hw : 2 ≤ w) (P : PixPot h w ℝ) (hps : 0 < P.pixelscale) (x y : ℝ) :
    let x' := nearFov w P.pixelscale P.x0 x
    let y' := nearFov h P.pixelscale P.y0 y
    P.potential x y = P.potential x' y' ∧ P.deflection x y = P.deflection x' y' ∧ P.convergence x y = P.convergence x' y' := by
  intro x' y'
  have hq : ∀ a b c, P.query x y a b c = P.query x' y' a b c := by
    intro a b c
    simp only [PixPot.query, interpBicubic]
    rw [bipos_near hw hps (x := x), bipos_near hh hps (x := y)]
  simp only [PixPot.potential, PixPot.deflection, PixPot.convergence, hq, true_and]

private theorem cubic_abs {a b c d s A B : ℝ} (ha : |a| ≤ A) (hb : |b| ≤ A) (hc : |c| ≤ B) (hd : |d| ≤ B)
    (h0 : -(1 / 2) ≤ s) (h1 : s ≤ 3 / 2) : |cubic a b c d s| ≤ A + 3 / 2 * B := by
  have p0 : 0 ≤ 1 - 3 * s ^ 2 + 2 * s ^ 3 := by
    have : 1 - 3 * s ^ 2 + 2 * s ^ 3 = (s - 1) ^ 2 * (1 + 2 * s) := by ring
    rw [this]; exact mul_nonneg (sq_nonneg _) (by linarith)
  have p1 : 0 ≤ 3 * s ^ 2 - 2 * s ^ 3 := by
    have : 3 * s ^ 2 - 2 * s ^ 3 = s ^ 2 * (3 - 2 * s) := by ring
    rw [this]; exact mul_nonneg (sq_nonneg _) (by linarith)
  have e : cubic a b c d s = (a * (1 - 3 * s ^ 2 + 2 * s ^ 3) + b * (3 * s ^ 2 - 2 * s ^ 3))
      + (c * (s * (1 - s) ^ 2) + d * (s ^ 2 * (s - 1))) := by unfold cubic; ring
  have k1 : |a * (1 - 3 * s ^ 2 + 2 * s ^ 3) + b * (3 * s ^ 2 - 2 * s ^ 3)| ≤ A := by
    refine (abs_add_le _ _).trans ?_
    rw [abs_mul, abs_mul, abs_of_nonneg p0, abs_of_nonneg p1]
    nlinarith [mul_le_mul_of_nonneg_right ha p0, mul_le_mul_of_nonneg_right hb p1]
  have hs : |s * (1 - s) ^ 2| + |s ^ 2 * (s - 1)| ≤ 3 / 2 := by
    rw [abs_mul, abs_mul, abs_of_nonneg (sq_nonneg (1 - s)), abs_of_nonneg (sq_nonneg s)]
    rcases le_total 0 s with hs | hs
    · rw [abs_of_nonneg hs]
      rcases le_total 1 s with hs1 | hs1
      · rw [abs_of_nonneg (by linarith)]; nlinarith [mul_nonneg hs (by linarith : 0 ≤ s - 1)]
      · rw [abs_of_nonpos (by linarith)]; nlinarith [mul_nonneg hs (by linarith : 0 ≤ 1 - s)]
    · rw [abs_of_nonpos hs, abs_of_nonpos (by linarith)]
      nlinarith [mul_nonneg (neg_nonneg.mpr hs) (by linarith : 0 ≤ 1 - s)]
  have k2 : |c * (s * (1 - s) ^ 2) + d * (s ^ 2 * (s - 1))| ≤ 3 / 2 * B := by
    have hB : 0 ≤ B := (abs_nonneg _).trans hc
    refine (abs_add_le _ _).trans ?_
    rw [abs_mul c, abs_mul d]
    nlinarith [mul_le_mul_of_nonneg_right hc (abs_nonneg (s * (1 - s) ^ 2)), mul_le_mul_of_nonneg_right hd (abs_nonneg (s ^ 2 * (s - 1)))]
  rw [e]
  exact (abs_add_le _ _).trans (add_le_add k1 k2)

private theorem cubic'_abs {a b c d s A B : ℝ} (ha : |a| ≤ A) (hb : |b| ≤ A) (hc : |c| ≤ B) (hd : |d| ≤ B)
    (h0 : -(1 / 2) ≤ s) (h1 : s ≤ 3 / 2) : |cubic' a b c d s| ≤ 9 * A + 11 / 2 * B := by
  have e : cubic' a b c d s = (b - a) * (6 * s * (1 - s)) + (c * ((1 - s) * (1 - 3 * s)) + d * (s * (3 * s - 2))) := by
    unfold cubic'; ring
  have hA : 0 ≤ A := (abs_nonneg _).trans ha
  have hB : 0 ≤ B := (abs_nonneg _).trans hc
  have hba : |b - a| ≤ 2 * A := (abs_sub _ _).trans (by linarith)
  have q : |6 * s * (1 - s)| ≤ 9 / 2 := by rw [abs_le]; constructor <;> nlinarith [sq_nonneg (s - 1 / 2)]
  have hs : |(1 - s) * (1 - 3 * s)| + |s * (3 * s - 2)| ≤ 11 / 2 := by
    rcases le_total 0 ((1 - s) * (1 - 3 * s)) with h2 | h2 <;> rcases le_total 0 (s * (3 * s - 2)) with h3 | h3
    · rw [abs_of_nonneg h2, abs_of_nonneg h3]; nlinarith [sq_nonneg (s - 1 / 2)]
    · rw [abs_of_nonneg h2, abs_of_nonpos h3]; nlinarith [sq_nonneg (s - 1 / 2)]
    · rw [abs_of_nonpos h2, abs_of_nonneg h3]; nlinarith [sq_nonneg (s - 1 / 2)]
    · rw [abs_of_nonpos h2, abs_of_nonpos h3]; nlinarith [sq_nonneg (s - 1 / 2)]
  have k1 : |(b - a) * (6 * s * (1 - s))| ≤ 9 * A := by
    rw [abs_mul]
    nlinarith [mul_le_mul hba q (abs_nonneg _) (by linarith)]
  have k2 : |c * ((1 - s) * (1 - 3 * s)) + d * (s * (3 * s - 2))| ≤ 11 / 2 * B := by
    refine (abs_add_le _ _).trans ?_
    rw [abs_mul c, abs_mul d]
    nlinarith [mul_le_mul_of_nonneg_right hc (abs_nonneg ((1 - s) * (1 - 3 * s))), mul_le_mul_of_nonneg_right hd (abs_nonneg (s * (3 * s - 2)))]
  rw [e]
  exact (abs_add_le _ _).trans (add_le_add k1 k2)

private theorem tensor_form1 (a0 a1 a2 a3 b0 b1 b2 b3 c0 c1 c2 c3 d0 d1 d2 d3 t u : ℝ) :
    bicubicY1 (bicubicCoef [a0, a1, a2, a3, b0, b1, b2, b3, c0, c1, c2, c3, d0, d1, d2, d3]) t u =
      cubic (cubic' a0 a1 b0 b1 t) (cubic' a3 a2 b3 b2 t) (cubic' c0 c1 d0 d1 t) (cubic' c3 c2 d3 d2 t) u := by
  simp [bicubicY1, bicubicCoef, BC, Finset.sum_range_succ, cubic, cubic']
  ring

private theorem tensor_form2 (a0 a1 a2 a3 b0 b1 b2 b3 c0 c1 c2 c3 d0 d1 d2 d3 t u : ℝ) :
    bicubicY2 (bicubicCoef [a0, a1, a2, a3, b0, b1, b2, b3, c0, c1, c2, c3, d0, d1, d2, d3]) t u =
      cubic' (cubic a0 a1 b0 b1 t) (cubic a3 a2 b3 b2 t) (cubic c0 c1 d0 d1 t) (cubic c3 c2 d3 d2 t) u := by
  simp [bicubicY2, bicubicCoef, BC, Finset.sum_range_succ, cubic, cubic']
  ring

private theorem at2_abs {h w : ℕ} {m : Fin h → Fin w → ℝ} {A : ℝ} (hA : ∀ i j, |m i j| ≤ A) {i j : ℤ} (i0 : 0 ≤ i)
    (i1 : i < h) (j0 : 0 ≤ j) (j1 : j < w) : |at2 m i j| ≤ A := by
  unfold at2
  rw [wrap_nonneg _ _ i0 i1, wrap_nonneg _ _ j0 j1]
  exact hA _ _

/-- The estimated derivative maps of a map with entries of size at most `M`. -/
private theorem kernels_abs {h w : ℕ} (hh : 2 ≤ h) (hw : 2 ≤ w) (Z : Fin h → Fin w → ℝ) {M : ℝ} (hM : ∀ i j, |Z i j| ≤ M) :
    ∃ m1 m2 m12, resolveMaps Z none none none = .ok (m1, m2, m12) ∧ (∀ i j, |m1 i j| ≤ 2 * M) ∧ (∀ i j, |m2 i j| ≤ 2 * M) ∧
      ∀ i j, |m12 i j| ≤ M := by
  have hM0 : 0 ≤ M := (abs_nonneg _).trans (hM ⟨0, by omega⟩ ⟨0, by omega⟩)
  have d : ∀ i j i' j', |Z i j - Z i' j'| ≤ 2 * M := fun i j i' j' => (abs_sub _ _).trans (by linarith [hM i j, hM i' j'])
  have d2 : ∀ i j i' j', |(Z i j - Z i' j') / 2| ≤ 2 * M := fun i j i' j' => by
    rw [abs_div, abs_two]; linarith [d i j i' j', abs_nonneg (Z i j - Z i' j')]
  unfold resolveMaps bicubicKernels
  rw [dif_pos ⟨hh, hw⟩]
  refine ⟨_, _, _, rfl, ?_, ?_, ?_⟩
  · intro i j
    simp only [Option.getD_none, div_one, mul_one]
    split
    · exact d _ _ _ _
    · split
      · exact d _ _ _ _
      · exact d2 _ _ _ _
  · intro i j
    simp only [Option.getD_none, div_one, mul_one]
    split
    · exact d _ _ _ _
    · split
      · exact d _ _ _ _
      · exact d2 _ _ _ _
  · intro i j
    simp only [Option.getD_none, mul_one]
    split
    · simpa using hM0
    · rw [abs_div, abs_of_pos (by norm_num : (0 : ℝ) < 4), div_le_iff₀ (by norm_num)]
      refine (abs_add_le _ _).trans ?_
      refine (add_le_add_left (abs_sub _ _) _).trans ?_
      refine (add_le_add_left (add_le_add_left (abs_sub _ _) _) _).trans ?_
      linarith [hM ⟨i - 1, by omega⟩ ⟨j - 1, by omega⟩, hM ⟨i - 1, by omega⟩ ⟨j + 1, by omega⟩, hM ⟨i + 1, by omega⟩ ⟨j - 1, by omega⟩,
        hM ⟨i + 1, by omega⟩ ⟨j + 1, by omega⟩]

/-- C141: on the whole sky a potential map deflects by no more than 56 times its largest entry over the pixel scale. -/
theorem C141_bounded {h w : ℕ} (hh : 2 ≤ h) (hw : 2 ≤ w) (P : PixPot h w ℝ) (hps : 0 < P.pixelscale) {M : ℝ}
    (hM : ∀ i j, |P.map i j| ≤ M) (x y : ℝ) :
    ∃ a, P.deflection x y = .ok a ∧ |a.1| ≤ 56 * M / P.pixelscale ∧ |a.2| ≤ 56 * M / P.pixelscale := by
  obtain ⟨m1, m2, m12, hm, b1, b2, b12⟩ := kernels_abs hh hw P.map hM
  have hM0 : 0 ≤ M := (abs_nonneg _).trans (hM ⟨0, by omega⟩ ⟨0, by omega⟩)
  set X := (x - P.x0) / ((w : ℝ) * P.pixelscale) * 2
  set Y := (y - P.y0) / ((h : ℝ) * P.pixelscale) * 2
  have ev := interpBicubic_eval hh hw X Y P.map none none none m1 m2 m12 hm false true false
  simp only [Bool.false_eq_true, if_false, if_true, List.nil_append, List.append_nil] at ev
  have hb : ∀ {n : ℕ}, 2 ≤ n → ∀ z : ℝ, -(1 / 2) ≤ bipos n z - (cell n (bipos n z) : ℝ) ∧
      bipos n z - (cell n (bipos n z) : ℝ) ≤ 3 / 2 := by
    intro n hn z
    obtain ⟨p0, p1⟩ := bipos_bounds hn z
    have hn2 : (2 : ℝ) ≤ n := by exact_mod_cast hn
    rw [← cellPos_eq hn p0 p1]
    have f0 := Int.fract_nonneg (bipos n z)
    have f1 := (Int.fract_lt_one (bipos n z)).le
    unfold cellPos
    by_cases c1 : bipos n z < 0
    · rw [if_pos c1]
      have : Int.fract (bipos n z) = bipos n z + 1 := by
        rw [Int.fract, show ⌊bipos n z⌋ = -1 from Int.floor_eq_iff.mpr ⟨by push_cast; linarith, by push_cast; linarith⟩]
        push_cast; ring
      constructor <;> linarith
    · rw [if_neg c1]
      by_cases c2 : bipos n z ≥ (n : ℝ) - 1
      · rw [if_pos c2]
        have : Int.fract (bipos n z) = bipos n z - (n - 1) := by
          rw [Int.fract, show ⌊bipos n z⌋ = (n : ℤ) - 1 from Int.floor_eq_iff.mpr ⟨by push_cast; linarith, by push_cast; linarith⟩]
          push_cast; ring
        constructor <;> linarith
      · rw [if_neg c2]; constructor <;> linarith
  obtain ⟨t0, t1⟩ := hb hw X
  obtain ⟨u0, u1⟩ := hb hh Y
  obtain ⟨i0, i1⟩ := cell_bounds2 hh (bipos h Y)
  obtain ⟨j0, j1⟩ := cell_bounds2 hw (bipos w X)
  set i := cell h (bipos h Y)
  set j := cell w (bipos w X)
  generalize bipos w X - (j : ℝ) = t at *
  generalize bipos h Y - (i : ℝ) = u at *
  have g : ∀ {m : Fin h → Fin w → ℝ} {A : ℝ}, (∀ a b, |m a b| ≤ A) → |at2 m i j| ≤ A ∧ |at2 m i (j + 1)| ≤ A ∧
      |at2 m (i + 1) (j + 1)| ≤ A ∧ |at2 m (i + 1) j| ≤ A := fun hA =>
    ⟨at2_abs hA i0 (by omega) j0 (by omega), at2_abs hA i0 (by omega) (by omega) (by omega),
      at2_abs hA (by omega) (by omega) (by omega) (by omega), at2_abs hA (by omega) (by omega) j0 (by omega)⟩
  obtain ⟨z0, z1, z2, z3⟩ := g hM
  obtain ⟨p0, p1, p2, p3⟩ := g b1
  obtain ⟨q0, q1, q2, q3⟩ := g b2
  obtain ⟨r0, r1, r2, r3⟩ := g b12
  refine ⟨(bicubicY1 (cellCoef P.map m1 m2 m12 i j) t u / P.pixelscale, bicubicY2 (cellCoef P.map m1 m2 m12 i j) t u / P.pixelscale), ?_, ?_, ?_⟩
  · simp only [PixPot.deflection, PixPot.query]
    rw [ev]
    rfl
  · simp only [abs_div, abs_of_pos hps]
    refine div_le_div_of_nonneg_right ?_ hps.le
    simp only [cellCoef, corners, List.cons_append, List.nil_append]
    rw [tensor_form1]
    refine (cubic_abs (cubic'_abs z0 z1 p0 p1 t0 t1) (cubic'_abs z3 z2 p3 p2 t0 t1) (cubic'_abs q0 q1 r0 r1 t0 t1)
      (cubic'_abs q3 q2 r3 r2 t0 t1) u0 u1).trans ?_
    linarith
  · simp only [abs_div, abs_of_pos hps]
    refine div_le_div_of_nonneg_right ?_ hps.le
    simp only [cellCoef, corners, List.cons_append, List.nil_append]
    rw [tensor_form2]
    refine (cubic'_abs (cubic_abs z0 z1 p0 p1 t0 t1) (cubic_abs z3 z2 p3 p2 t0 t1) (cubic_abs q0 q1 r0 r1 t0 t1)
      (cubic_abs q3 q2 r3 r2 t0 t1) u0 u1).trans ?_
    linarith

/-- C128 for potential maps: the deflection is bounded on the whole sky, so no image is further from its source than 80 times
the largest entry of the map over the pixel scale. -/
theorem C128_pixelated_potential {h w : ℕ} (hh : 2 ≤ h) (hw : 2 ≤ w) (P : PixPot h w ℝ) (hps : 0 < P.pixelscale) {M : ℝ}
    (hM : ∀ i j, |P.map i j| ≤ M) :
    ∃ alpha : ℝ → ℝ → ℝ × ℝ, (∀ x y, P.deflection x y = .ok (alpha x y)) ∧
      Reach alpha (P.x0, P.y0) 0 (80 * M / P.pixelscale) 0 := by
  choose f hf h1 h2 using fun x y => C141_bounded hh hw P hps hM x y
  have hM0 : 0 ≤ M := (abs_nonneg _).trans (hM ⟨0, by omega⟩ ⟨0, by omega⟩)
  refine ⟨f, hf, fun p _ => ?_⟩
  rw [zero_mul, add_zero, len2]
  have hA : 0 ≤ M / P.pixelscale := div_nonneg hM0 hps.le
  have e1 := h1 p.1 p.2
  have e2 := h2 p.1 p.2
  rw [mul_div_assoc] at e1 e2 ⊢
  refine (sqrt_le_sqrt (y := (80 * (M / P.pixelscale)) ^ 2) ?_).trans (by rw [sqrt_sq (by positivity)])
  have k1 := sq_le_sq' (by linarith [(abs_le.1 e1).1]) (abs_le.1 e1).2
  have k2 := sq_le_sq' (by linarith [(abs_le.1 e2).1]) (abs_le.1 e2).2
  nlinarith

private theorem sky_chain' {n : ℕ} (hn : 2 ≤ n) {ps c x g : ℝ} {G : ℝ → ℝ} (hps : 0 < ps)
    (hG : HasDerivAt G ((n : ℝ) / 2 * g) ((x - c) / ((n : ℝ) * ps) * 2)) :
    HasDerivAt (fun s => G ((s - c) / ((n : ℝ) * ps) * 2)) (g / ps) x := by
  have hn0 : (0 : ℝ) < n := by positivity
  have hd : HasDerivAt (fun s : ℝ => (s - c) / ((n : ℝ) * ps) * 2) (1 / ((n : ℝ) * ps) * 2) x :=
    (((hasDerivAt_id x).sub_const c).div_const _).mul_const 2
  have := hG.comp x hd
  refine this.congr_deriv ?_
  field_simp

private theorem fov_frame' {n : ℕ} (hn : 2 ≤ n) {ps c x : ℝ} (hps : 0 < ps) (hx : InFov n ps c x) :
    -1 < (x - c) / ((n : ℝ) * ps) * 2 ∧ (x - c) / ((n : ℝ) * ps) * 2 < 1 := by
  have hn0 : (0 : ℝ) < n := by positivity
  have hp : 0 < (n : ℝ) * ps := mul_pos hn0 hps
  obtain ⟨h0, h1⟩ := abs_lt.mp hx
  rw [div_mul_eq_mul_div, lt_div_iff₀ hp, div_lt_iff₀ hp]
  constructor <;> linarith

/-- C141 as a user would have it: the deflection is the gradient of the potential on the whole sky. -/
def C141_statement : Prop :=
  ∀ (h w : ℕ) (P : PixPot h w ℝ) (psi ax ay : ℝ → ℝ → ℝ), 2 ≤ h → 2 ≤ w → 0 < P.pixelscale →
    (∀ x y, P.potential x y = .ok (psi x y)) → (∀ x y, P.deflection x y = .ok (ax x y, ay x y)) →
    ∀ x y, |x - P.x0| ≠ w * P.pixelscale / 2 → |y - P.y0| ≠ h * P.pixelscale / 2 →
      HasDerivAt (fun s => psi s y) (ax x y) x ∧ HasDerivAt (fun s => psi x s) (ay x y) y

/-- C141, what holds: each component is the derivative of the potential along its axis wherever the coordinate along that
axis is inside the frame, whatever the other coordinate. -/
theorem C141_partial {h w : ℕ} (P : PixPot h w ℝ) (psi ax ay : ℝ → ℝ → ℝ) (hh : 2 ≤ h) (hw : 2 ≤ w)
    (hps : 0 < P.pixelscale) (hpsi : ∀ x y, P.potential x y = .ok (psi x y)) (ha : ∀ x y, P.deflection x y = .ok (ax x y, ay x y))
    (x y : ℝ) :
    (InFov w P.pixelscale P.x0 x → HasDerivAt (fun s => psi s y) (ax x y) x) ∧
    (InFov h P.pixelscale P.y0 y → HasDerivAt (fun s => psi x s) (ay x y) y) := by
  obtain ⟨Y, Y1, Y2, Y12, Y11, Y22, hev, hx, hy⟩ := C11_derivatives hh hw P.map none none none
  let fx : ℝ → ℝ := fun x => (x - P.x0) / ((w : ℝ) * P.pixelscale) * 2
  let fy : ℝ → ℝ := fun y => (y - P.y0) / ((h : ℝ) * P.pixelscale) * 2
  have e0 : psi = fun x y => Y (fx x) (fy y) := by
    funext x y
    have := hpsi x y
    simp only [PixPot.potential, PixPot.query, hev] at this
    exact (Except.ok.inj this).symm
  have e1 : ∀ x y, (ax x y, ay x y) = (Y1 (fx x) (fy y) / P.pixelscale, Y2 (fx x) (fy y) / P.pixelscale) := by
    intro x y
    have := ha x y
    simp only [PixPot.deflection, PixPot.query, hev] at this
    exact (Except.ok.inj this).symm
  obtain ⟨ex, ey⟩ := Prod.mk.inj (e1 x y)
  rw [e0, ex, ey]
  constructor
  · intro hix
    obtain ⟨x0, x1⟩ := fov_frame' hw hps hix
    exact sky_chain' hw hps (hx _ (fy y) x0 x1).1
  · intro hiy
    obtain ⟨y0, y1⟩ := fov_frame' hh hps hiy
    exact sky_chain' hh hps (hy (fx x) _ y0 y1).1

theorem near_outside {n : ℕ} {ps c x : ℝ} (hps : 0 < ps) (hn : 2 ≤ n) (hx : (n : ℝ) * ps / 2 < |x - c|) :
    ∀ᶠ s in nhds x, nearFov n ps c s = nearFov n ps c x := by
  have hn0 : (0 : ℝ) < n := by positivity
  have hw : 0 < (n : ℝ) * ps / 2 := by positivity
  rcases lt_abs.mp hx with h1 | h1
  · filter_upwards [lt_mem_nhds (show c + (n : ℝ) * ps / 2 < x by linarith)] with s hs
    unfold nearFov
    rw [min_eq_right (by linarith), min_eq_right (by linarith)]
  · filter_upwards [gt_mem_nhds (show x < c - (n : ℝ) * ps / 2 by linarith)] with s hs
    unfold nearFov
    rw [max_eq_left ((min_le_left _ _).trans (by linarith)), max_eq_left ((min_le_left _ _).trans (by linarith))]

theorem near_near {n : ℕ} {ps c x : ℝ} (hps : 0 < ps) : nearFov n ps c (nearFov n ps c x) = nearFov n ps c x := by
  have hw : 0 ≤ (n : ℝ) * ps / 2 := by positivity
  unfold nearFov
  rw [add_sub_cancel_left, min_eq_left (max_le (by linarith) (min_le_right _ _)), max_eq_right (le_max_left _ _)]

/-- C141, beyond a vertical edge: the potential, both components of the deflection and the convergence no longer change
outwards, so the component of the deflection across the edge is the derivative of the potential only if it is zero. -/
theorem C141_outside {h w : ℕ} (P : PixPot h w ℝ) (psi ax ay kappa : ℝ → ℝ → ℝ) (hh : 2 ≤ h) (hw : 2 ≤ w)
    (hps : 0 < P.pixelscale) (hpsi : ∀ x y, P.potential x y = .ok (psi x y)) (ha : ∀ x y, P.deflection x y = .ok (ax x y, ay x y))
    (hk : ∀ x y, P.convergence x y = .ok (kappa x y)) (x y : ℝ) (hx : w * P.pixelscale / 2 < |x - P.x0|) :
    HasDerivAt (fun s => psi s y) 0 x ∧ HasDerivAt (fun s => ax s y) 0 x ∧ HasDerivAt (fun s => ay s y) 0 x ∧
    HasDerivAt (fun s => kappa s y) 0 x ∧ ax x y = ax (nearFov w P.pixelscale P.x0 x) y ∧
    (HasDerivAt (fun s => psi s y) (ax x y) x ↔ ax (nearFov w P.pixelscale P.x0 x) y = 0) := by
  have key : ∀ s y, psi s y = psi (nearFov w P.pixelscale P.x0 s) (nearFov h P.pixelscale P.y0 y) ∧
      (ax s y, ay s y) = (ax (nearFov w P.pixelscale P.x0 s) (nearFov h P.pixelscale P.y0 y),
        ay (nearFov w P.pixelscale P.x0 s) (nearFov h P.pixelscale P.y0 y)) ∧
      kappa s y = kappa (nearFov w P.pixelscale P.x0 s) (nearFov h P.pixelscale P.y0 y) := by
    intro s y
    obtain ⟨h1, h2, h3⟩ := C141_nearest hh hw P hps s y
    rw [hpsi, hpsi] at h1
    rw [ha, ha] at h2
    rw [hk, hk] at h3
    exact ⟨Except.ok.inj h1, Except.ok.inj h2, Except.ok.inj h3⟩
  have ev : ∀ᶠ s in nhds x, psi s y = psi x y ∧ ax s y = ax x y ∧ ay s y = ay x y ∧ kappa s y = kappa x y := by
    filter_upwards [near_outside hps hw hx] with s hs
    obtain ⟨a1, a2, a3⟩ := key s y
    obtain ⟨b1, b2, b3⟩ := key x y
    obtain ⟨c1, c2⟩ := Prod.mk.inj a2
    obtain ⟨d1, d2⟩ := Prod.mk.inj b2
    rw [hs] at a1 a3 c1 c2
    exact ⟨a1.trans b1.symm, c1.trans d1.symm, c2.trans d2.symm, a3.trans b3.symm⟩
  have d0 : HasDerivAt (fun s => psi s y) 0 x := (hasDerivAt_const x (psi x y)).congr_of_eventuallyEq (ev.mono fun s hs => hs.1)
  have hnn : ax x y = ax (nearFov w P.pixelscale P.x0 x) y := by
    rw [(Prod.mk.inj (key x y).2.1).1, (Prod.mk.inj (key (nearFov w P.pixelscale P.x0 x) y).2.1).1, near_near hps]
  refine ⟨d0, (hasDerivAt_const x (ax x y)).congr_of_eventuallyEq (ev.mono fun s hs => hs.2.1),
    (hasDerivAt_const x (ay x y)).congr_of_eventuallyEq (ev.mono fun s hs => hs.2.2.1),
    (hasDerivAt_const x (kappa x y)).congr_of_eventuallyEq (ev.mono fun s hs => hs.2.2.2), hnn, ?_⟩
  constructor
  · intro hd
    rw [← hnn]
    exact hd.unique d0
  · intro h0
    rw [hnn, h0]
    exact d0

/-- A map of four pixels, rising by 1 to the right. -/
noncomputable def rampMap : PixPot 2 2 ℝ := ⟨0, 0, fun _ j => ((j : ℕ) : ℝ), 1⟩

theorem ramp_maps : resolveMaps rampMap.map none none none = .ok (fun _ _ => 0, fun _ _ => -1, fun _ _ => 0) := by
  unfold resolveMaps bicubicKernels rampMap
  rw [dif_pos ⟨le_rfl, le_rfl⟩]
  simp only [Bind.bind, Except.bind, Pure.pure, Except.pure, Option.getD_none, Except.ok.injEq, Prod.mk.injEq]
  refine ⟨?_, ?_, ?_⟩
  · funext i j; fin_cases i <;> simp
  · funext i j; fin_cases j <;> simp
  · funext i j; fin_cases i <;> simp

/-- C141, how it fails: to the right of the map, at any distance, the deflection is `(-9/2, 1/2)` while the potential is zero. -/
theorem C141_fails_ramp (x : ℝ) (hx : 1 < x) :
    rampMap.potential x 0 = .ok 0 ∧ rampMap.deflection x 0 = .ok (-(9 / 2), 1 / 2) := by
  have hn : nearFov 2 rampMap.pixelscale rampMap.x0 x = 1 := by
    simp only [nearFov, rampMap]
    push_cast
    rw [min_eq_right (by linarith), max_eq_right (by norm_num)]; norm_num
  have hn0 : nearFov 2 rampMap.pixelscale rampMap.y0 0 = 0 := by
    simp only [nearFov, rampMap]
    norm_num
  obtain ⟨h1, h2, -⟩ := C141_nearest le_rfl le_rfl rampMap one_pos x 0
  rw [hn, hn0] at h1 h2
  have hX : ((1 : ℝ) - rampMap.x0) / (((2 : ℕ) : ℝ) * rampMap.pixelscale) * 2 = 1 := by norm_num [rampMap]
  have hY : ((0 : ℝ) - rampMap.y0) / (((2 : ℕ) : ℝ) * rampMap.pixelscale) * 2 = 0 := by norm_num [rampMap]
  have bx : bipos 2 (1 : ℝ) = 3 / 2 := by norm_num [bipos, toPix, clamp]
  have bz : bipos 2 (0 : ℝ) = 1 / 2 := by norm_num [bipos, toPix, clamp]
  have cc : ∀ z : ℝ, cell 2 z = 0 := by intro z; have := cell_bounds2 (le_refl 2) z; omega
  have ev := interpBicubic_eval (le_refl 2) (le_refl 2) (1 : ℝ) 0 rampMap.map none none none _ _ _ ramp_maps
  simp only [bx, bz, cc] at ev
  have hc : cellCoef rampMap.map (fun _ _ => (0 : ℝ)) (fun _ _ => -1) (fun _ _ => 0) 0 0
      = bicubicCoef [0, 1, 1, 0, 0, 0, 0, 0, -1, -1, -1, -1, 0, 0, 0, 0] := by
    have w0 : ∀ (m : Fin 2 → Fin 2 → ℝ), corners m 0 0 = [m 0 0, m 0 1, m 1 1, m 1 0] := by
      intro m
      simp only [corners, at2, zero_add]
      rw [wrap_nonneg _ m (i := 0) le_rfl (by norm_num), wrap_nonneg _ m (i := 1) (by norm_num) (by norm_num),
        wrap_nonneg _ _ (i := 0) le_rfl (by norm_num), wrap_nonneg _ _ (i := 1) (by norm_num) (by norm_num),
        wrap_nonneg _ _ (i := 0) le_rfl (by norm_num), wrap_nonneg _ _ (i := 1) (by norm_num) (by norm_num)]
      rfl
    simp only [cellCoef, w0, rampMap]
    simp
  rw [hc] at ev
  constructor
  · rw [h1]
    simp only [PixPot.potential, PixPot.query, hX, hY, ev, if_true, if_false, Bool.false_eq_true, List.append_nil]
    simp only [Bind.bind, Except.bind, Pure.pure, Except.pure, Except.ok.injEq]
    norm_num [bicubicY, bicubicCoef, BC, Finset.sum_range_succ]
  · rw [h2]
    simp only [PixPot.deflection, PixPot.query, hX, hY, ev, if_true, if_false, Bool.false_eq_true, List.append_nil, List.nil_append]
    simp only [Bind.bind, Except.bind, Pure.pure, Except.pure, Except.ok.injEq, tensor_form1, tensor_form2]
    norm_num [cubic, cubic', rampMap]

/-- C141 fails. -/
theorem C141_fails : ¬ C141_statement := by
  intro h
  obtain ⟨psi, ax, ay, kappa, h1, h2, h3, -⟩ := C11_pixelated_potential le_rfl le_rfl rampMap one_pos
  have hg := (h 2 2 rampMap psi ax ay le_rfl le_rfl one_pos h1 h2 3 0 (by norm_num [rampMap]) (by norm_num [rampMap])).1
  have ho := (C141_outside rampMap psi ax ay kappa le_rfl le_rfl one_pos h1 h2 h3 3 0 (by norm_num [rampMap])).1
  have he := h2 3 0
  rw [(C141_fails_ramp 3 (by norm_num)).2] at he
  have e := hg.unique ho
  rw [← (Prod.mk.inj (Except.ok.inj he)).1] at e
  norm_num at e

/-- The bound is for a map that deflects. -/
example : (∀ i j, |rampMap.map i j| ≤ 1) ∧ ∃ a, rampMap.deflection 3 0 = .ok a ∧ a ≠ 0 := by
  refine ⟨fun i j => by fin_cases j <;> norm_num [rampMap], _, (C141_fails_ramp 3 (by norm_num)).2, fun h => ?_⟩
  have := congrArg Prod.fst h
  norm_num at this

/-- Half way up the right edge of the frame of another map, moving along the edge. -/
example : InFov 2 1 0 (1 / 2) ∧ ¬ InFov 2 1 0 3 ∧ nearFov 2 1 0 3 = 1 ∧ nearFov 2 1 0 (1 / 2) = 1 / 2 := by
  refine ⟨by norm_num [InFov], by norm_num [InFov], by norm_num [nearFov], by norm_num [nearFov]⟩

end Caustics

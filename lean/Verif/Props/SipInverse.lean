import Verif.Props.WCS

/-! C117: undoing a SIP distortion with the negated coefficients. -/

open Real

namespace Caustics

/-- Two monomials differ by no more than their slope times the distance. -/
theorem monomial_lip (a b : ℕ) {B u v u' v' d : ℝ} (hu : |u| ≤ B) (hv : |v| ≤ B) (hu' : |u'| ≤ B) (hv' : |v'| ≤ B)
    (hd1 : |u' - u| ≤ d) (hd2 : |v' - v| ≤ d) :
    |u' ^ a * v' ^ b - u ^ a * v ^ b| ≤ (a + b : ℕ) * B ^ (a + b - 1) * d := by
  have hB : 0 ≤ B := (abs_nonneg u).trans hu
  have hd : 0 ≤ d := (abs_nonneg _).trans hd1
  have pw : ∀ (n : ℕ) {s t : ℝ}, |s| ≤ B → |t| ≤ B → |t - s| ≤ d → |t ^ n - s ^ n| ≤ n * B ^ (n - 1) * d := by
    intro n s t hs ht hst
    induction n with
    | zero => simp
    | succ n ih =>
      have e : t ^ (n + 1) - s ^ (n + 1) = t * (t ^ n - s ^ n) + s ^ n * (t - s) := by ring
      have hsn : |s ^ n| ≤ B ^ n := by rw [abs_pow]; exact pow_le_pow_left₀ (abs_nonneg s) hs n
      rw [e]
      refine (abs_add_le _ _).trans ?_
      rw [abs_mul, abs_mul]
      rcases Nat.eq_zero_or_pos n with rfl | hn
      · simpa using hst
      · have h1 := mul_le_mul ht ih (abs_nonneg _) hB
        have h2 := mul_le_mul hsn hst (abs_nonneg _) (pow_nonneg hB n)
        have e2 : B * (n * B ^ (n - 1) * d) = n * B ^ n * d := by
          rw [show B * (n * B ^ (n - 1) * d) = n * (B ^ (n - 1) * B) * d by ring, ← pow_succ, Nat.sub_add_cancel hn]
        rw [e2] at h1
        push_cast
        try rw [Nat.add_sub_cancel]
        linarith
  have e : u' ^ a * v' ^ b - u ^ a * v ^ b = (u' ^ a - u ^ a) * v' ^ b + u ^ a * (v' ^ b - v ^ b) := by ring
  have hva : |v' ^ b| ≤ B ^ b := by rw [abs_pow]; exact pow_le_pow_left₀ (abs_nonneg _) hv' b
  have hua : |u ^ a| ≤ B ^ a := by rw [abs_pow]; exact pow_le_pow_left₀ (abs_nonneg _) hu a
  rw [e]
  refine (abs_add_le _ _).trans ?_
  rw [abs_mul, abs_mul]
  have h1 := mul_le_mul (pw a hu hu' hd1) hva (abs_nonneg _) (by positivity)
  have h2 := mul_le_mul hua (pw b hv hv' hd2) (abs_nonneg _) (by positivity)
  have e1 : (a : ℝ) * B ^ (a - 1) * d * B ^ b = a * B ^ (a + b - 1) * d := by
    rcases Nat.eq_zero_or_pos a with rfl | ha
    · simp
    · rw [show a + b - 1 = (a - 1) + b by omega, pow_add]; ring
  have e2 : B ^ a * (b * B ^ (b - 1) * d) = b * B ^ (a + b - 1) * d := by
    rcases Nat.eq_zero_or_pos b with rfl | hb
    · simp
    · rw [show a + b - 1 = a + (b - 1) by omega, pow_add]; ring
  rw [e1] at h1
  rw [e2] at h2
  push_cast
  linarith

/-- A bound on the slope of the distortion within `B` pixels of the reference pixel. -/
noncomputable def sipSlope (powers : List (ℕ × ℕ)) (coefs : List (ℝ × ℝ)) (B : ℝ) : ℝ :=
  ∑ k ∈ Finset.range powers.length, max |(coefs.getD k (0, 0)).1| |(coefs.getD k (0, 0)).2| *
    (((powers.getD k (0, 0)).1 + (powers.getD k (0, 0)).2 : ℕ) * B ^ ((powers.getD k (0, 0)).1 + (powers.getD k (0, 0)).2 - 1))

/-- A bound on the distortion within `B` pixels of the reference pixel. -/
noncomputable def sipSize (powers : List (ℕ × ℕ)) (coefs : List (ℝ × ℝ)) (B : ℝ) : ℝ :=
  ∑ k ∈ Finset.range powers.length, max |(coefs.getD k (0, 0)).1| |(coefs.getD k (0, 0)).2| *
    B ^ ((powers.getD k (0, 0)).1 + (powers.getD k (0, 0)).2)

theorem sipDelta_lip (powers : List (ℕ × ℕ)) (coefs : List (ℝ × ℝ)) (hl : powers.length ≤ coefs.length) {B d : ℝ}
    {p p' δ δ' : ℝ × ℝ} (h1 : |p.1| ≤ B) (h2 : |p.2| ≤ B) (h1' : |p'.1| ≤ B) (h2' : |p'.2| ≤ B) (hd1 : |p'.1 - p.1| ≤ d)
    (hd2 : |p'.2 - p.2| ≤ d) (hp : sipDelta powers coefs p = some δ) (hp' : sipDelta powers coefs p' = some δ') :
    |δ'.1 - δ.1| ≤ sipSlope powers coefs B * d ∧ |δ'.2 - δ.2| ≤ sipSlope powers coefs B * d := by
  rw [sipDelta_sum _ _ _ hl, Option.some.injEq] at hp hp'
  subst hp hp'
  have hd : 0 ≤ d := (abs_nonneg _).trans hd1
  have hB : 0 ≤ B := (abs_nonneg _).trans h1
  simp only [← Finset.sum_sub_distrib, ← mul_sub]
  constructor
  all_goals
    unfold sipSlope
    rw [Finset.sum_mul]
    refine (Finset.abs_sum_le_sum_abs _ _).trans (Finset.sum_le_sum fun k _ => ?_)
    rw [abs_mul, mul_assoc]
    refine mul_le_mul ?_ (monomial_lip _ _ h1 h2 h1' h2' hd1 hd2) (abs_nonneg _) (by positivity)
    first | exact le_max_left _ _ | exact le_max_right _ _

theorem sipDelta_size (powers : List (ℕ × ℕ)) (coefs : List (ℝ × ℝ)) (hl : powers.length ≤ coefs.length) {B : ℝ}
    {p δ : ℝ × ℝ} (h1 : |p.1| ≤ B) (h2 : |p.2| ≤ B) (hp : sipDelta powers coefs p = some δ) :
    |δ.1| ≤ sipSize powers coefs B ∧ |δ.2| ≤ sipSize powers coefs B := by
  rw [sipDelta_sum _ _ _ hl, Option.some.injEq] at hp
  subst hp
  have hB : 0 ≤ B := (abs_nonneg _).trans h1
  constructor
  all_goals
    unfold sipSize
    dsimp only
    refine (Finset.abs_sum_le_sum_abs _ _).trans (Finset.sum_le_sum fun k _ => ?_)
    rw [abs_mul]
    refine mul_le_mul ?_ ?_ (abs_nonneg _) (by positivity)
    · first | exact le_max_left _ _ | exact le_max_right _ _
    · rw [abs_mul, abs_pow, abs_pow, pow_add]
      exact mul_le_mul (pow_le_pow_left₀ (abs_nonneg _) h1 _) (pow_le_pow_left₀ (abs_nonneg _) h2 _) (by positivity)
        (by positivity)

/-- All coefficients times `e`. -/
def scaleCoefs (e : ℝ) (coefs : List (ℝ × ℝ)) : List (ℝ × ℝ) := coefs.map fun c => (e * c.1, e * c.2)

theorem scaleCoefs_getD (e : ℝ) (coefs : List (ℝ × ℝ)) (k : ℕ) :
    (scaleCoefs e coefs).getD k (0, 0) = (e * (coefs.getD k (0, 0)).1, e * (coefs.getD k (0, 0)).2) := by
  simp only [scaleCoefs, List.getD_eq_getElem?_getD, List.getElem?_map]
  cases coefs[k]? <;> simp

theorem sipDelta_scale (e : ℝ) (powers : List (ℕ × ℕ)) (coefs : List (ℝ × ℝ)) (hl : powers.length ≤ coefs.length)
    {p δ : ℝ × ℝ} (hp : sipDelta powers coefs p = some δ) :
    sipDelta powers (scaleCoefs e coefs) p = some (e * δ.1, e * δ.2) := by
  rw [sipDelta_sum _ _ _ hl, Option.some.injEq] at hp
  subst hp
  rw [sipDelta_sum _ _ _ (by simpa [scaleCoefs] using hl)]
  simp only [scaleCoefs_getD, Finset.mul_sum, mul_assoc]

/-- Back with the negated coefficients: the error is at most the slope of the distortion times the distortion. -/
theorem C117_negated (i j : ℝ) (crpix : ℝ × ℝ) (cd : CDMatrix) (hcd : cd.det ≠ 0) (powers : List (ℕ × ℕ))
    (coefs : List (ℝ × ℝ)) (hl : powers.length ≤ coefs.length) (crplane : Option (ℝ × ℝ)) (R : ℝ)
    (hi : |i - crpix.1| ≤ R) (hj : |j - crpix.2| ≤ R) :
    ∃ w q, pixelToPlane i j crpix cd powers coefs crplane = some w ∧
      planeToPixel w.1 w.2 crpix cd powers (scaleCoefs (-1) coefs) crplane = some q ∧
      |q.1 - i| ≤ sipSlope powers coefs (R + sipSize powers coefs R) * sipSize powers coefs R ∧
      |q.2 - j| ≤ sipSlope powers coefs (R + sipSize powers coefs R) * sipSize powers coefs R := by
  have hR : 0 ≤ R := (abs_nonneg _).trans hi
  set u : ℝ × ℝ := (i - crpix.1, j - crpix.2) with hu
  obtain ⟨δ, hδ⟩ : ∃ δ, sipDelta powers coefs u = some δ := ⟨_, sipDelta_sum _ _ _ hl⟩
  obtain ⟨δ', hδ'⟩ : ∃ δ', sipDelta powers coefs (u.1 + δ.1, u.2 + δ.2) = some δ' := ⟨_, sipDelta_sum _ _ _ hl⟩
  obtain ⟨s1, s2⟩ := sipDelta_size powers coefs hl (B := R) hi hj hδ
  have hS : 0 ≤ sipSize powers coefs R := (abs_nonneg _).trans s1
  obtain ⟨w, hw, hq⟩ := C05_pixel_plane_pixel_sip i j crpix cd hcd powers powers coefs (scaleCoefs (-1) coefs) crplane δ
    (-1 * δ'.1, -1 * δ'.2) hδ (sipDelta_scale (-1) powers coefs hl hδ')
  have lip := sipDelta_lip powers coefs hl (B := R + sipSize powers coefs R) (d := sipSize powers coefs R)
    (hi.trans (by linarith)) (hj.trans (by linarith)) ((abs_add_le _ _).trans (add_le_add hi s1))
    ((abs_add_le _ _).trans (add_le_add hj s2)) (by simpa using s1) (by simpa using s2) hδ hδ'
  refine ⟨w, _, hw, hq, ?_, ?_⟩
  · rw [show i + δ.1 + -1 * δ'.1 - i = -(δ'.1 - δ.1) by ring, abs_neg]
    exact lip.1
  · rw [show j + δ.2 + -1 * δ'.2 - j = -(δ'.2 - δ.2) by ring, abs_neg]
    exact lip.2

theorem sipSize_scale (e : ℝ) (powers : List (ℕ × ℕ)) (coefs : List (ℝ × ℝ)) (B : ℝ) :
    sipSize powers (scaleCoefs e coefs) B = |e| * sipSize powers coefs B := by
  simp only [sipSize, scaleCoefs_getD, abs_mul, ← mul_max_of_nonneg _ _ (abs_nonneg e), mul_assoc, ← Finset.mul_sum]

theorem sipSlope_scale (e : ℝ) (powers : List (ℕ × ℕ)) (coefs : List (ℝ × ℝ)) (B : ℝ) :
    sipSlope powers (scaleCoefs e coefs) B = |e| * sipSlope powers coefs B := by
  simp only [sipSlope, scaleCoefs_getD, abs_mul, ← mul_max_of_nonneg _ _ (abs_nonneg e), mul_assoc, ← Finset.mul_sum]

theorem sipSlope_mono (powers : List (ℕ × ℕ)) (coefs : List (ℝ × ℝ)) {B B' : ℝ} (h0 : 0 ≤ B) (h : B ≤ B') :
    sipSlope powers coefs B ≤ sipSlope powers coefs B' :=
  Finset.sum_le_sum fun k _ => mul_le_mul_of_nonneg_left
    (mul_le_mul_of_nonneg_left (pow_le_pow_left₀ h0 h _) (Nat.cast_nonneg _)) (by positivity)

/-- The advice in the documentation holds: weaken a distortion by a factor `e` and what the negated coefficients leave of
it is weaker by `e^2`, with one constant for all pixels within `R` of the reference pixel. -/
theorem C117_second_order (crpix : ℝ × ℝ) (cd : CDMatrix) (hcd : cd.det ≠ 0) (powers : List (ℕ × ℕ)) (coefs : List (ℝ × ℝ))
    (hl : powers.length ≤ coefs.length) (crplane : Option (ℝ × ℝ)) (R : ℝ) :
    ∃ C, ∀ e i j : ℝ, |e| ≤ 1 → |i - crpix.1| ≤ R → |j - crpix.2| ≤ R →
      ∃ w q, pixelToPlane i j crpix cd powers (scaleCoefs e coefs) crplane = some w ∧
        planeToPixel w.1 w.2 crpix cd powers (scaleCoefs (-1) (scaleCoefs e coefs)) crplane = some q ∧
        |q.1 - i| ≤ C * e ^ 2 ∧ |q.2 - j| ≤ C * e ^ 2 := by
  refine ⟨sipSlope powers coefs (R + sipSize powers coefs R) * sipSize powers coefs R, fun e i j he hi hj => ?_⟩
  have hR : 0 ≤ R := (abs_nonneg _).trans hi
  have hS : 0 ≤ sipSize powers coefs R := Finset.sum_nonneg fun k _ => by positivity
  obtain ⟨w, q, hw, hq, h1, h2⟩ := C117_negated i j crpix cd hcd powers (scaleCoefs e coefs) (by simpa [scaleCoefs] using hl)
    crplane R hi hj
  have key : sipSlope powers (scaleCoefs e coefs) (R + sipSize powers (scaleCoefs e coefs) R) *
      sipSize powers (scaleCoefs e coefs) R ≤
      sipSlope powers coefs (R + sipSize powers coefs R) * sipSize powers coefs R * e ^ 2 := by
    rw [sipSlope_scale, sipSize_scale, ← sq_abs e]
    have hm := sipSlope_mono powers coefs (B := R + |e| * sipSize powers coefs R) (B' := R + sipSize powers coefs R)
      (by positivity) (by nlinarith)
    have := mul_le_mul_of_nonneg_right hm (mul_nonneg hS (sq_nonneg |e|))
    nlinarith
  exact ⟨w, q, hw, hq, h1.trans key, h2.trans key⟩

/-- Where the slope of the distortion stays below one, different pixels see different positions. -/
theorem C117_injective (crpix : ℝ × ℝ) (cd : CDMatrix) (hcd : cd.det ≠ 0) (powers : List (ℕ × ℕ)) (coefs : List (ℝ × ℝ))
    (crplane : Option (ℝ × ℝ)) (R : ℝ) (hs : sipSlope powers coefs R < 1) (i j i' j' : ℝ) (w : ℝ × ℝ)
    (hi : |i - crpix.1| ≤ R) (hj : |j - crpix.2| ≤ R) (hi' : |i' - crpix.1| ≤ R) (hj' : |j' - crpix.2| ≤ R)
    (h : pixelToPlane i j crpix cd powers coefs crplane = some w)
    (h' : pixelToPlane i' j' crpix cd powers coefs crplane = some w) : i = i' ∧ j = j' := by
  unfold pixelToPlane at h h'
  obtain ⟨δ, hδ, e1⟩ := Option.map_eq_some_iff.1 h
  obtain ⟨δ', hδ', e2⟩ := Option.map_eq_some_iff.1 h'
  have hl : powers.length ≤ coefs.length := by
    by_contra hc
    simp [sipDelta, not_le.1 hc] at hδ
  have e3 : cd.apply (i - crpix.1 + δ.1, j - crpix.2 + δ.2) = cd.apply (i' - crpix.1 + δ'.1, j' - crpix.2 + δ'.2) := by
    rw [← e2, Prod.mk.injEq] at e1
    exact Prod.ext (by linarith [e1.1]) (by linarith [e1.2])
  simp only [CDMatrix.apply, Prod.mk.injEq] at e3
  have e5 : i - crpix.1 + δ.1 = i' - crpix.1 + δ'.1 := by
    refine mul_left_cancel₀ hcd ?_
    unfold CDMatrix.det
    linear_combination cd.d * e3.1 - cd.b * e3.2
  have e6 : j - crpix.2 + δ.2 = j' - crpix.2 + δ'.2 := by
    refine mul_left_cancel₀ hcd ?_
    unfold CDMatrix.det
    linear_combination cd.a * e3.2 - cd.c * e3.1
  set d := max |i' - i| |j' - j| with hd
  have lip := sipDelta_lip powers coefs hl (B := R) (d := d) hi hj hi' hj'
    (by rw [show i' - crpix.1 - (i - crpix.1) = i' - i by ring]; exact le_max_left _ _)
    (by rw [show j' - crpix.2 - (j - crpix.2) = j' - j by ring]; exact le_max_right _ _) hδ hδ'
  have f1 : |i' - i| ≤ sipSlope powers coefs R * d := by
    rw [show i' - i = -(δ'.1 - δ.1) by linarith, abs_neg]
    exact lip.1
  have f2 : |j' - j| ≤ sipSlope powers coefs R * d := by
    rw [show j' - j = -(δ'.2 - δ.2) by linarith, abs_neg]
    exact lip.2
  have f3 : d ≤ sipSlope powers coefs R * d := max_le f1 f2
  have f4 : 0 ≤ d := (abs_nonneg _).trans (le_max_left _ _)
  have f5 : d = 0 := by nlinarith
  have g1 : |i' - i| ≤ 0 := f5 ▸ le_max_left _ _
  have g2 : |j' - j| ≤ 0 := f5 ▸ le_max_right _ _
  constructor
  · linarith [abs_nonpos_iff.1 g1]
  · linarith [abs_nonpos_iff.1 g2]

/-- It is not an exact inverse: one quadratic term of coefficient `1 / 10` leaves `-0.0210` pixels at one pixel from the
reference. -/
theorem C117_not_exact :
    ∃ w, pixelToPlane 1 0 (0, 0) ⟨1, 0, 0, 1⟩ [(2, 0)] [(1 / 10, 0)] none = some w ∧
      planeToPixel w.1 w.2 (0, 0) ⟨1, 0, 0, 1⟩ [(2, 0)] (scaleCoefs (-1) [(1 / 10, 0)]) none = some (1 - 21 / 1000, 0) := by
  refine ⟨_, by simp [pixelToPlane, sipDelta]; rfl, ?_⟩
  simp [planeToPixel, CDMatrix.inv?, CDMatrix.det, CDMatrix.apply, sipDelta, scaleCoefs]
  norm_num

/-- A quadratic distortion within ten pixels: slope `1/50`, size `1/10`. -/
example : sipSlope [(2, 0)] [(1 / 1000, 0)] 10 = 1 / 50 ∧ sipSize [(2, 0)] [(1 / 1000, 0)] 10 = 1 / 10 := by
  constructor <;> norm_num [sipSlope, sipSize, Finset.sum_range_succ, abs_of_pos]

example (i j i' j' : ℝ) (w : ℝ × ℝ) (hi : |i - 0| ≤ 10) (hj : |j - 0| ≤ 10) (hi' : |i' - 0| ≤ 10) (hj' : |j' - 0| ≤ 10)
    (h : pixelToPlane i j (0, 0) ⟨1, 0, 0, 1⟩ [(2, 0)] [(1 / 1000, 0)] none = some w)
    (h' : pixelToPlane i' j' (0, 0) ⟨1, 0, 0, 1⟩ [(2, 0)] [(1 / 1000, 0)] none = some w) : i = i' ∧ j = j' :=
  C117_injective (0, 0) ⟨1, 0, 0, 1⟩ (by norm_num [CDMatrix.det]) [(2, 0)] [(1 / 1000, 0)] none 10
    (by norm_num [sipSlope, Finset.sum_range_succ, abs_of_pos]) i j i' j' w hi hj hi' hj' h h'

end Caustics

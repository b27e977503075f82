import Verif.Props.Bicubic
import Verif.Spec.PixConv
import Verif.Spec.Grad
import Mathlib.Analysis.Calculus.FDeriv.Prod
import Mathlib.Analysis.SpecificLimits.Basic
import Mathlib.Tactic.IntervalCases
import Mathlib.Data.List.GetD

/-! C121: `PixelatedPotential` on finer and finer maps of the same potential. -/

namespace Caustics

open Set Filter Topology

/-! ### The interpolation as a linear function of what it is given -/

theorem rowDot_add : ∀ (R : List ℤ) (v w : List ℝ), v.length = w.length →
    (List.zipWith (fun (b : ℤ) x => (b : ℝ) * x) R (List.zipWith (· + ·) v w)).sum
      = (List.zipWith (fun (b : ℤ) x => (b : ℝ) * x) R v).sum + (List.zipWith (fun (b : ℤ) x => (b : ℝ) * x) R w).sum
  | [], _, _, _ => by simp
  | _ :: _, [], [], _ => by simp
  | b :: R, a :: v, c :: w, h => by
    simp only [List.zipWith_cons_cons, List.sum_cons]
    rw [rowDot_add R v w (by simpa using h)]
    ring

theorem rowDot_bound {M : ℝ} (hM : 0 ≤ M) : ∀ (R : List ℤ) (v : List ℝ), (∀ a ∈ v, |a| ≤ M) →
    |(List.zipWith (fun (b : ℤ) x => (b : ℝ) * x) R v).sum| ≤ ((R.map Int.natAbs).sum : ℝ) * M
  | [], _, _ => by simp
  | b :: R, [], _ => by
    simp only [List.zipWith_nil_right, List.sum_nil, abs_zero]
    positivity
  | b :: R, a :: v, h => by
    simp only [List.zipWith_cons_cons, List.sum_cons, List.map_cons, Nat.cast_add]
    have h1 := rowDot_bound hM R v fun x hx => h x (List.mem_cons_of_mem _ hx)
    have h2 : |(b : ℝ) * a| ≤ ((Int.natAbs b : ℕ) : ℝ) * M := by
      rw [abs_mul, show |(b : ℝ)| = ((Int.natAbs b : ℕ) : ℝ) by rw [Nat.cast_natAbs]; simp]
      exact mul_le_mul_of_nonneg_left (h a List.mem_cons_self) (by positivity)
    rw [add_mul]
    exact (abs_add_le _ _).trans (add_le_add h2 h1)

theorem coef_bound {M : ℝ} (hM : 0 ≤ M) {v : List ℝ} (hv : ∀ a ∈ v, |a| ≤ M) (i j : ℕ) : |bicubicCoef v i j| ≤ 81 * M := by
  unfold bicubicCoef
  refine (rowDot_bound hM _ v hv).trans (mul_le_mul_of_nonneg_right ?_ hM)
  have h81 : ∀ k, ((BC.getD k []).map Int.natAbs).sum ≤ 81 := by
    intro k
    rcases lt_or_ge k 16 with hk | hk
    · interval_cases k <;> decide
    · have : BC.getD k [] = [] := List.getD_eq_default _ _ (by simpa [BC] using hk)
      rw [this]; simp
  exact_mod_cast h81 _

/-- Value and derivatives of the polynomial of a cell are small if the coefficients are. -/
theorem accum_bound {M : ℝ} {c : ℕ → ℕ → ℝ} (hc : ∀ i j, |c i j| ≤ M) {t u : ℝ} (ht0 : 0 ≤ t) (ht1 : t ≤ 1) (hu0 : 0 ≤ u)
    (hu1 : u ≤ 1) : |bicubicY c t u| ≤ 96 * M ∧ |bicubicY1 c t u| ≤ 96 * M ∧ |bicubicY2 c t u| ≤ 96 * M ∧
      |bicubicY11 c t u| ≤ 96 * M ∧ |bicubicY22 c t u| ≤ 96 * M := by
  have hM : 0 ≤ M := (abs_nonneg _).trans (hc 0 0)
  have term : ∀ (f : ℝ) (i j a b : ℕ), |f| ≤ 6 → |f * c i j * t ^ a * u ^ b| ≤ 6 * M := by
    intro f i j a b hf
    rw [abs_mul, abs_mul, abs_mul, abs_of_nonneg (pow_nonneg ht0 a), abs_of_nonneg (pow_nonneg hu0 b)]
    have p1 : t ^ a ≤ 1 := pow_le_one₀ ht0 ht1
    have p2 : u ^ b ≤ 1 := pow_le_one₀ hu0 hu1
    have q1 := pow_nonneg ht0 a
    have q2 := pow_nonneg hu0 b
    have h1 : |f| * |c i j| ≤ 6 * M := mul_le_mul hf (hc i j) (abs_nonneg _) (by norm_num)
    have h2 : 0 ≤ |f| * |c i j| := by positivity
    calc |f| * |c i j| * t ^ a * u ^ b ≤ |f| * |c i j| * 1 * 1 := by gcongr
      _ ≤ 6 * M := by linarith
  have sum16 : ∀ g : ℕ → ℕ → ℝ, (∀ i < 4, ∀ j < 4, |g i j| ≤ 6 * M) →
      |∑ i ∈ Finset.range 4, ∑ j ∈ Finset.range 4, g i j| ≤ 96 * M := by
    intro g hg
    calc _ ≤ ∑ i ∈ Finset.range 4, ∑ j ∈ Finset.range 4, |g i j| :=
          (Finset.abs_sum_le_sum_abs _ _).trans (Finset.sum_le_sum fun i _ => Finset.abs_sum_le_sum_abs _ _)
      _ ≤ ∑ i ∈ Finset.range 4, ∑ j ∈ Finset.range 4, 6 * M :=
          Finset.sum_le_sum fun i hi => Finset.sum_le_sum fun j hj => hg i (Finset.mem_range.1 hi) j (Finset.mem_range.1 hj)
      _ = 96 * M := by simp [Finset.sum_const]; ring
  have h6 : (0 : ℝ) ≤ 6 * M := by positivity
  have f1 : ∀ i : ℕ, i < 4 → |(i : ℝ)| ≤ 6 := by
    intro i hi
    rw [abs_of_nonneg (by positivity)]
    exact_mod_cast (by omega : i ≤ 6)
  have f2 : ∀ i : ℕ, i < 4 → |(i : ℝ) * ((i : ℝ) - 1)| ≤ 6 := by
    intro i hi
    interval_cases i <;> norm_num
  refine ⟨sum16 _ fun i _ j _ => ?_, sum16 _ fun i hi j _ => ?_, sum16 _ fun i _ j hj => ?_, sum16 _ fun i hi j _ => ?_,
    sum16 _ fun i _ j hj => ?_⟩
  · simpa using term 1 i j i j (by norm_num)
  · split_ifs
    · exact term _ i j _ _ (f1 i hi)
    · simpa using h6
  · split_ifs
    · exact term _ i j _ _ (f1 j hj)
    · simpa using h6
  · split_ifs
    · exact term _ i j _ _ (f2 i hi)
    · simpa using h6
  · split_ifs
    · exact term _ i j _ _ (f2 j hj)
    · simpa using h6

theorem accum_add (c d : ℕ → ℕ → ℝ) (t u : ℝ) :
    bicubicY (fun i j => c i j + d i j) t u = bicubicY c t u + bicubicY d t u ∧
    bicubicY1 (fun i j => c i j + d i j) t u = bicubicY1 c t u + bicubicY1 d t u ∧
    bicubicY2 (fun i j => c i j + d i j) t u = bicubicY2 c t u + bicubicY2 d t u ∧
    bicubicY11 (fun i j => c i j + d i j) t u = bicubicY11 c t u + bicubicY11 d t u ∧
    bicubicY22 (fun i j => c i j + d i j) t u = bicubicY22 c t u + bicubicY22 d t u := by
  unfold bicubicY bicubicY1 bicubicY2 bicubicY11 bicubicY22
  simp only [← Finset.sum_add_distrib]
  refine ⟨?_, ?_, ?_, ?_, ?_⟩ <;> refine Finset.sum_congr rfl fun i _ => Finset.sum_congr rfl fun j _ => ?_
  · ring
  · split_ifs <;> ring
  · split_ifs <;> ring
  · split_ifs <;> ring
  · split_ifs <;> ring

/-- What the routine makes of a ramp, with the derivative maps it estimates for it: `a`, `B` per column, `C` per row. -/
theorem ramp_cell (a B C t u : ℝ) :
    let c := bicubicCoef [a, a + B, a + B + C, a + C, -C, -C, -C, -C, -B, -B, -B, -B, 0, 0, 0, 0]
    bicubicY1 c t u = 6 * t * (1 - t) * (B + C) - C ∧ bicubicY2 c t u = 6 * u * (1 - u) * (B + C) - B ∧
      bicubicY11 c t u = 6 * (1 - 2 * t) * (B + C) ∧ bicubicY22 c t u = 6 * (1 - 2 * u) * (B + C) ∧
      (B = 0 → C = 0 → bicubicY c t u = a) := by
  intro c
  refine ⟨?_, ?_, ?_, ?_, ?_⟩
  · simp [c, bicubicY1, Finset.sum_range_succ, bicubicCoef, BC]; ring
  · simp [c, bicubicY2, Finset.sum_range_succ, bicubicCoef, BC]; ring
  · simp [c, bicubicY11, Finset.sum_range_succ, bicubicCoef, BC]; ring
  · simp [c, bicubicY22, Finset.sum_range_succ, bicubicCoef, BC]; ring
  · rintro rfl rfl
    simp [c, bicubicY, Finset.sum_range_succ, bicubicCoef, BC]

/-- The values the routine reads around the cell `(p, q)`, from an image `ζ`. -/
noncomputable def cellInput (ζ : ℕ → ℕ → ℝ) (p q : ℕ) : List ℝ :=
  let d1 (p q : ℕ) : ℝ := (ζ (p - 1) q - ζ (p + 1) q) / 2
  let d2 (p q : ℕ) : ℝ := (ζ p (q - 1) - ζ p (q + 1)) / 2
  let d12 (p q : ℕ) : ℝ := (ζ (p - 1) (q - 1) - ζ (p - 1) (q + 1) - ζ (p + 1) (q - 1) + ζ (p + 1) (q + 1)) / 4
  [ζ p q, ζ p (q + 1), ζ (p + 1) (q + 1), ζ (p + 1) q, d1 p q, d1 p (q + 1), d1 (p + 1) (q + 1), d1 (p + 1) q,
    d2 p q, d2 p (q + 1), d2 (p + 1) (q + 1), d2 (p + 1) q, d12 p q, d12 p (q + 1), d12 (p + 1) (q + 1), d12 (p + 1) q]

/-- Away from the border the routine reads `cellInput`. -/
theorem cellCoef_input {n : ℕ} (ζ : ℕ → ℕ → ℝ) {p q : ℕ} (hp0 : 1 ≤ p) (hp1 : p + 2 < n) (hq0 : 1 ≤ q) (hq1 : q + 2 < n) :
    ∃ m1 m2 m12, resolveMaps (fun i j : Fin n => ζ i j) none none none = .ok (m1, m2, m12) ∧
      cellCoef (fun i j : Fin n => ζ i j) m1 m2 m12 (p : ℤ) (q : ℤ) = bicubicCoef (cellInput ζ p q) := by
  have hm : resolveMaps (fun i j : Fin n => ζ i j) none none none = bicubicKernels (fun i j : Fin n => ζ i j) 1 1 := by
    unfold resolveMaps
    rcases bicubicKernels (fun i j : Fin n => ζ i j) 1 1 with e | ⟨a, b, c⟩ <;> rfl
  rw [hm]
  unfold bicubicKernels
  rw [dif_pos ⟨by omega, by omega⟩]
  refine ⟨_, _, _, rfl, ?_⟩
  have rd : ∀ (m : Fin n → Fin n → ℝ) (p q : ℕ) (hp : p < n) (hq : q < n), at2 m (p : ℤ) (q : ℤ) = m ⟨p, hp⟩ ⟨q, hq⟩ := by
    intro m p q hp hq
    unfold at2; rw [wrap_nat _ _ _ hq, wrap_nat _ _ _ hp]
  have e1 : ∀ p : ℕ, (p : ℤ) + 1 = ((p + 1 : ℕ) : ℤ) := by intro p; push_cast; ring
  unfold cellCoef corners cellInput
  have a1 : p < n := by omega
  have a2 : p + 1 < n := by omega
  have a3 : q < n := by omega
  have a4 : q + 1 < n := by omega
  have b1 : ¬ p = 0 := by omega
  have b2 : ¬ p = n - 1 := by omega
  have b3 : ¬ p + 1 = n - 1 := by omega
  have b4 : ¬ q = 0 := by omega
  have b5 : ¬ q = n - 1 := by omega
  have b6 : ¬ q + 1 = n - 1 := by omega
  simp only [e1, rd _ _ _ a1 a3, rd _ _ _ a1 a4, rd _ _ _ a2 a4, rd _ _ _ a2 a3, b1, b2, b3, b4, b5, b6, Nat.add_eq_zero_iff,
    one_ne_zero, and_false, or_self, dite_false, mul_one, List.cons_append, List.nil_append]

/-- The input is additive in the image. -/
theorem cellInput_add (ζ ξ : ℕ → ℕ → ℝ) (p q : ℕ) :
    cellInput (fun i j => ζ i j + ξ i j) p q = List.zipWith (· + ·) (cellInput ζ p q) (cellInput ξ p q) := by
  simp only [cellInput, List.zipWith_cons_cons, List.zipWith_nil_right, List.cons.injEq, and_true, true_and]
  refine ⟨?_, ?_, ?_, ?_, ?_, ?_, ?_, ?_, ?_, ?_, ?_, ?_⟩ <;> ring

theorem cellInput_bound {ζ : ℕ → ℕ → ℝ} {p q : ℕ} {ρ : ℝ} (hζ : ∀ i j, p - 1 ≤ i → i ≤ p + 2 → q - 1 ≤ j → j ≤ q + 2 → |ζ i j| ≤ ρ) :
    ∀ a ∈ cellInput ζ p q, |a| ≤ ρ := by
  have hz : ∀ i j, p - 1 ≤ i → i ≤ p + 2 → q - 1 ≤ j → j ≤ q + 2 → -ρ ≤ ζ i j ∧ ζ i j ≤ ρ :=
    fun i j a b c d => abs_le.1 (hζ i j a b c d)
  have d : ∀ {a b c d : ℕ}, p - 1 ≤ a → a ≤ p + 2 → q - 1 ≤ b → b ≤ q + 2 → p - 1 ≤ c → c ≤ p + 2 → q - 1 ≤ d → d ≤ q + 2 →
      |(ζ a b - ζ c d) / 2| ≤ ρ := by
    intro a b c d h1 h2 h3 h4 h5 h6 h7 h8
    have := hz a b h1 h2 h3 h4
    have := hz c d h5 h6 h7 h8
    rw [abs_le]; constructor <;> linarith
  have d4 : ∀ {a b c d : ℕ}, p - 1 ≤ a → a ≤ p + 2 → q - 1 ≤ b → b ≤ q + 2 → p - 1 ≤ c → c ≤ p + 2 → q - 1 ≤ d → d ≤ q + 2 →
      |(ζ a b - ζ a d - ζ c b + ζ c d) / 4| ≤ ρ := by
    intro a b c d h1 h2 h3 h4 h5 h6 h7 h8
    have := hz a b h1 h2 h3 h4
    have := hz a d h1 h2 h7 h8
    have := hz c b h5 h6 h3 h4
    have := hz c d h5 h6 h7 h8
    rw [abs_le]; constructor <;> linarith
  intro a ha
  simp only [cellInput, List.mem_cons, List.not_mem_nil, or_false] at ha
  rcases ha with h | h | h | h | h | h | h | h | h | h | h | h | h | h | h | h <;> rw [h]
  iterate 4 exact hζ _ _ (by omega) (by omega) (by omega) (by omega)
  iterate 8 exact d (by omega) (by omega) (by omega) (by omega) (by omega) (by omega) (by omega) (by omega)
  iterate 4 exact d4 (by omega) (by omega) (by omega) (by omega) (by omega) (by omega) (by omega) (by omega)

/-- The input for a ramp. -/
theorem cellInput_ramp (a B C : ℝ) {p q : ℕ} (hp : 1 ≤ p) (hq : 1 ≤ q) :
    cellInput (fun i j => a + ((j : ℝ) - q) * B + ((i : ℝ) - p) * C) p q
      = [a, a + B, a + B + C, a + C, -C, -C, -C, -C, -B, -B, -B, -B, 0, 0, 0, 0] := by
  simp only [cellInput, List.cons.injEq, and_true, Nat.add_sub_cancel]
  push_cast [Nat.cast_sub hp, Nat.cast_sub hq]
  refine ⟨?_, ?_, ?_, ?_, ?_, ?_, ?_, ?_, ?_, ?_, ?_, ?_, ?_, ?_, ?_, ?_⟩ <;> ring

/-- An image that is a ramp up to `ρ` around a cell: what the interpolation gives inside the cell. -/
theorem near_ramp {ζ : ℕ → ℕ → ℝ} {p q : ℕ} (hp : 1 ≤ p) (hq : 1 ≤ q) {a B C ρ : ℝ}
    (hZ : ∀ i j, p - 1 ≤ i → i ≤ p + 2 → q - 1 ≤ j → j ≤ q + 2 → |ζ i j - (a + ((j : ℝ) - q) * B + ((i : ℝ) - p) * C)| ≤ ρ)
    {t u : ℝ} (ht0 : 0 ≤ t) (ht1 : t ≤ 1) (hu0 : 0 ≤ u) (hu1 : u ≤ 1) :
    let c := bicubicCoef (cellInput ζ p q)
    |bicubicY1 c t u - (6 * t * (1 - t) * (B + C) - C)| ≤ 7776 * ρ ∧
      |bicubicY2 c t u - (6 * u * (1 - u) * (B + C) - B)| ≤ 7776 * ρ ∧
      |bicubicY11 c t u - 6 * (1 - 2 * t) * (B + C)| ≤ 7776 * ρ ∧
      |bicubicY22 c t u - 6 * (1 - 2 * u) * (B + C)| ≤ 7776 * ρ ∧
      (B = 0 → C = 0 → |bicubicY c t u - a| ≤ 7776 * ρ) := by
  intro c
  have hρ : 0 ≤ ρ := (abs_nonneg _).trans (hZ p q (by omega) (by omega) (by omega) (by omega))
  set r : ℕ → ℕ → ℝ := fun i j => ζ i j - (a + ((j : ℝ) - q) * B + ((i : ℝ) - p) * C) with hr
  have split : cellInput ζ p q = List.zipWith (· + ·)
      (cellInput (fun i j => a + ((j : ℝ) - q) * B + ((i : ℝ) - p) * C) p q) (cellInput r p q) := by
    rw [← cellInput_add]
    congr 1
    funext i j
    simp only [hr]
    ring
  have hc : c = fun i j => bicubicCoef (cellInput (fun i j => a + ((j : ℝ) - q) * B + ((i : ℝ) - p) * C) p q) i j
      + bicubicCoef (cellInput r p q) i j := by
    funext i j
    simp only [c]
    rw [split]
    exact rowDot_add _ _ _ rfl
  obtain ⟨s0, s1, s2, s11, s22⟩ := accum_add (bicubicCoef (cellInput (fun i j => a + ((j : ℝ) - q) * B + ((i : ℝ) - p) * C) p q))
    (bicubicCoef (cellInput r p q)) t u
  rw [← hc] at s0 s1 s2 s11 s22
  obtain ⟨b0, b1, b2, b11, b22⟩ := accum_bound (c := bicubicCoef (cellInput r p q)) (M := 81 * ρ)
    (coef_bound hρ (cellInput_bound hZ)) ht0 ht1 hu0 hu1
  rw [cellInput_ramp a B C hp hq] at s0 s1 s2 s11 s22
  obtain ⟨r1, r2, r11, r22, r0⟩ := ramp_cell a B C t u
  rw [s1, s2, s11, s22, s0, r1, r2, r11, r22]
  refine ⟨?_, ?_, ?_, ?_, fun hB hC => ?_⟩
  · rw [add_sub_cancel_left]; linarith
  · rw [add_sub_cancel_left]; linarith
  · rw [add_sub_cancel_left]; linarith
  · rw [add_sub_cancel_left]; linarith
  · rw [r0 hB hC, add_sub_cancel_left]; linarith

/-! ### The map of a potential -/

/-- `PixelatedPotential` with the values of `ψ` at the centres of `n × n` pixels that fill a square of side `L` around
`(x0, y0)`. -/
noncomputable def sampledPotential (ψ : ℝ → ℝ → ℝ) (L x0 y0 : ℝ) (n : ℕ) : PixPot n n ℝ where
  x0 := x0
  y0 := y0
  map i j := ψ (pixPos (L / n) n j) (pixPos (L / n) n i)
  pixelscale := L / n

/-- Where a position lies on the map, counted in pixels: the pixel number at the centre of a pixel. -/
noncomputable def pixNumber (L : ℝ) (n : ℕ) (d : ℝ) : ℝ := d / (L / n) + ((n : ℝ) - 1) / 2

theorem pixNumber_interior {L d : ℝ} (hL : 0 < L) (hd : |d| < L / 2) :
    ∀ᶠ n : ℕ in atTop, 1 ≤ pixNumber L n d ∧ pixNumber L n d < n - 2 ∧ 4 ≤ n := by
  obtain ⟨h1, h2⟩ := abs_lt.1 hd
  set a := d / L + 1 / 2 with ha
  have e : ∀ n : ℕ, 0 < n → pixNumber L n d = n * a - 1 / 2 := by
    intro n hn
    have : (n : ℝ) ≠ 0 := by positivity
    unfold pixNumber
    rw [ha]
    field_simp
    ring
  have a0 : 0 < a := by
    have : -(1 / 2) < d / L := by rw [lt_div_iff₀ hL]; linarith
    linarith
  have a1 : 0 < 1 - a := by
    have : d / L < 1 / 2 := by rw [div_lt_iff₀ hL]; linarith
    linarith
  have g1 : Tendsto (fun n : ℕ => (n : ℝ) * a) atTop atTop := tendsto_natCast_atTop_atTop.atTop_mul_const a0
  have g2 : Tendsto (fun n : ℕ => (n : ℝ) * (1 - a)) atTop atTop := tendsto_natCast_atTop_atTop.atTop_mul_const a1
  filter_upwards [g1.eventually_ge_atTop 2, g2.eventually_ge_atTop 2, eventually_ge_atTop 4] with n h1 h2 h4
  rw [e n (by omega)]
  refine ⟨by linarith, by linarith, h4⟩

/-- What a query inside the map evaluates. -/
theorem sampled_query (ψ : ℝ → ℝ → ℝ) {L x0 y0 x y : ℝ} (hL : 0 < L) {n : ℕ} (hn : 4 ≤ n)
    (hX0 : 1 ≤ pixNumber L n (x - x0)) (hX1 : pixNumber L n (x - x0) < n - 2)
    (hY0 : 1 ≤ pixNumber L n (y - y0)) (hY1 : pixNumber L n (y - y0) < n - 2) :
    ∃ p q : ℕ, 1 ≤ p ∧ 1 ≤ q ∧ (q : ℝ) = ⌊pixNumber L n (x - x0)⌋ ∧ (p : ℝ) = ⌊pixNumber L n (y - y0)⌋ ∧
      ∀ getY getdY getddY,
        let c := bicubicCoef (cellInput (fun i j => ψ (pixPos (L / n) n j) (pixPos (L / n) n i)) p q)
        let t := Int.fract (pixNumber L n (x - x0))
        let u := Int.fract (pixNumber L n (y - y0))
        (sampledPotential ψ L x0 y0 n).query x y getY getdY getddY = .ok (
          (if getY then [bicubicY c t u] else [])
          ++ (if getdY then [bicubicY1 c t u, bicubicY2 c t u] else [])
          ++ (if getddY then [bicubicY12 c t u, bicubicY11 c t u, bicubicY22 c t u] else [])) := by
  have n0 : (n : ℝ) ≠ 0 := by positivity
  have pos : ∀ d : ℝ, 1 ≤ pixNumber L n d → pixNumber L n d < n - 2 →
      bipos n (d / ((n : ℝ) * (L / n)) * 2) = pixNumber L n d ∧ ∃ k : ℕ, 1 ≤ k ∧ k + 2 < n ∧ (k : ℤ) = ⌊pixNumber L n d⌋ ∧
        cell n (pixNumber L n d) = k := by
    intro d h0 h1
    have e : toPix (d / ((n : ℝ) * (L / n)) * 2) n = pixNumber L n d := by
      rw [toPix_eq]
      unfold pixCoord pixNumber
      field_simp
      ring
    refine ⟨?_, ?_⟩
    · unfold bipos clamp
      rw [e, max_eq_left (by linarith), min_eq_left (by linarith)]
    · have f0 : 1 ≤ ⌊pixNumber L n d⌋ := by rw [Int.le_floor]; exact_mod_cast h0
      have f1 : ⌊pixNumber L n d⌋ < (n : ℤ) - 2 := by rw [Int.floor_lt]; push_cast; exact h1
      obtain ⟨k, hk⟩ := Int.eq_ofNat_of_zero_le (by omega : 0 ≤ ⌊pixNumber L n d⌋)
      refine ⟨k, by omega, by omega, hk.symm, ?_⟩
      unfold cell clamp
      rw [hk] at f0 f1 ⊢
      omega
  obtain ⟨bx, q, q1, q2, hq, cq⟩ := pos (x - x0) hX0 hX1
  obtain ⟨by', p, p1, p2, hp, cp⟩ := pos (y - y0) hY0 hY1
  refine ⟨p, q, p1, q1, by rw [← hq]; simp, by rw [← hp]; simp, ?_⟩
  intro getY getdY getddY c t u
  obtain ⟨m1, m2, m12, hm, hc⟩ := cellCoef_input (n := n) (fun i j => ψ (pixPos (L / n) n j) (pixPos (L / n) n i)) p1 p2 q1 q2
  have ev := interpBicubic_eval (by omega : 2 ≤ n) (by omega : 2 ≤ n) ((x - x0) / ((n : ℝ) * (L / n)) * 2)
    ((y - y0) / ((n : ℝ) * (L / n)) * 2) _ none none none m1 m2 m12 hm getY getdY getddY
  simp only [bx, by', cq, cp, hc] at ev
  have ht : pixNumber L n (x - x0) - ((q : ℤ) : ℝ) = t := by rw [hq]; rfl
  have hu : pixNumber L n (y - y0) - ((p : ℤ) : ℝ) = u := by rw [hp]; rfl
  rw [ht, hu] at ev
  exact ev

/-- The pixels read are less than two pixels away. -/
theorem pixPos_near {L : ℝ} (hL : 0 < L) {n : ℕ} (hn : 1 ≤ n) {d : ℝ} {q j : ℕ} (hq : (q : ℝ) = ⌊pixNumber L n d⌋) (hq1 : 1 ≤ q)
    (h0 : q - 1 ≤ j) (h1 : j ≤ q + 2) :
    pixPos (L / n) n j - d = ((j : ℝ) - q - Int.fract (pixNumber L n d)) * (L / n) ∧ |pixPos (L / n) n j - d| ≤ 2 * (L / n) := by
  have hn0 : (0 : ℝ) < n := by exact_mod_cast hn
  have e : pixPos (L / n) n j - d = ((j : ℝ) - q - Int.fract (pixNumber L n d)) * (L / n) := by
    rw [hq, Int.fract]
    unfold pixPos pixNumber
    field_simp
    ring
  refine ⟨e, ?_⟩
  have f0 := Int.fract_nonneg (pixNumber L n d)
  have f1 := Int.fract_lt_one (pixNumber L n d)
  have j0 : (q : ℝ) - 1 ≤ j := by have : (q : ℝ) ≤ j + 1 := by exact_mod_cast (by omega : q ≤ j + 1)
                                  linarith
  have j1 : (j : ℝ) ≤ q + 2 := by exact_mod_cast h1
  have ps : 0 < L / n := by positivity
  rw [e, abs_mul, abs_of_pos ps]
  refine mul_le_mul_of_nonneg_right ?_ ps.le
  rw [abs_le]
  constructor <;> linarith

/-! ### The limit -/

theorem pixel_small {L : ℝ} {δ : ℝ} (hδ : 0 < δ) : ∀ᶠ n : ℕ in atTop, 2 * (L / n) < δ := by
  have : Tendsto (fun n : ℕ => 2 * (L / (n : ℝ))) atTop (𝓝 (2 * 0)) := (tendsto_const_div_atTop_nhds_zero_nat L).const_mul 2
  rw [mul_zero] at this
  exact this.eventually_lt_const hδ

/-- The potential is right in the limit: where `ψ` is continuous, the potential read off finer and finer maps of it tends to
`ψ`. -/
theorem C121_potential_partial {ψ : ℝ → ℝ → ℝ} {L x0 y0 x y : ℝ} (hL : 0 < L) (hx : |x - x0| < L / 2) (hy : |y - y0| < L / 2)
    (hψ : ContinuousAt (fun z : ℝ × ℝ => ψ z.1 z.2) (x - x0, y - y0)) :
    ∀ ε > 0, ∀ᶠ n : ℕ in atTop, ∃ v, (sampledPotential ψ L x0 y0 n).potential x y = .ok v ∧ |v - ψ (x - x0) (y - y0)| < ε := by
  intro ε hε
  obtain ⟨δ, hδ, hc⟩ := Metric.continuousAt_iff.1 hψ (ε / 15552) (by positivity)
  filter_upwards [pixNumber_interior hL hx, pixNumber_interior hL hy, pixel_small (L := L) hδ] with n ⟨hX0, hX1, hn⟩ ⟨hY0, hY1, _⟩ hs
  obtain ⟨p, q, p1, q1, hq, hp, hQ⟩ := sampled_query ψ (x := x) (y := y) hL hn hX0 hX1 hY0 hY1
  have near := near_ramp (ζ := fun i j => ψ (pixPos (L / n) n j) (pixPos (L / n) n i)) p1 q1 (a := ψ (x - x0) (y - y0)) (B := 0)
    (C := 0) (ρ := ε / 15552) (by
      intro i j i0 i1 j0 j1
      have h := @hc (pixPos (L / n) n j, pixPos (L / n) n i) (by
        rw [Prod.dist_eq, max_lt_iff, Real.dist_eq, Real.dist_eq]
        exact ⟨(pixPos_near hL (by omega) hq q1 j0 j1).2.trans_lt hs, (pixPos_near hL (by omega) hp p1 i0 i1).2.trans_lt hs⟩)
      rw [Real.dist_eq] at h
      simpa using h.le)
    (Int.fract_nonneg (pixNumber L n (x - x0))) (Int.fract_lt_one _).le (Int.fract_nonneg (pixNumber L n (y - y0)))
    (Int.fract_lt_one _).le
  refine ⟨_, by simp only [PixPot.potential, hQ]; rfl, (near.2.2.2.2 rfl rfl).trans_lt ?_⟩
  linarith

/-- A pixel map near a point where the potential has a gradient. -/
theorem sampled_near {ψ : ℝ → ℝ → ℝ} {L x0 y0 x y gx gy : ℝ} (hL : 0 < L) (hx : |x - x0| < L / 2) (hy : |y - y0| < L / 2)
    (hψ : HasGrad ψ gx gy (x - x0) (y - y0)) {ε : ℝ} (hε : 0 < ε) :
    ∀ᶠ n : ℕ in atTop, ∃ Y1 Y2 Y11 Y22 Y12 : ℝ,
      (sampledPotential ψ L x0 y0 n).query x y false true false = .ok [Y1, Y2] ∧
      (sampledPotential ψ L x0 y0 n).query x y false false true = .ok [Y12, Y11, Y22] ∧
      let t := Int.fract (pixNumber L n (x - x0))
      let u := Int.fract (pixNumber L n (y - y0))
      |Y1 - (6 * t * (1 - t) * (gx + gy) - gy) * (L / n)| ≤ ε * (L / n) ∧
        |Y2 - (6 * u * (1 - u) * (gx + gy) - gx) * (L / n)| ≤ ε * (L / n) ∧
        |Y11 - 6 * (1 - 2 * t) * (gx + gy) * (L / n)| ≤ ε * (L / n) ∧
        |Y22 - 6 * (1 - 2 * u) * (gx + gy) * (L / n)| ≤ ε * (L / n) := by
  have hd := (hasFDerivAt_iff_isLittleO_nhds_zero.1 hψ).def (c := ε / 15552) (by positivity)
  obtain ⟨δ, hδ, hball⟩ := Metric.eventually_nhds_iff.1 hd
  filter_upwards [pixNumber_interior hL hx, pixNumber_interior hL hy, pixel_small (L := L) hδ] with n ⟨hX0, hX1, hn⟩ ⟨hY0, hY1, _⟩ hs
  have hn0 : (0 : ℝ) < n := by exact_mod_cast (by omega : 0 < n)
  obtain ⟨p, q, p1, q1, hq, hp, hQ⟩ := sampled_query ψ (x := x) (y := y) hL hn hX0 hX1 hY0 hY1
  set t := Int.fract (pixNumber L n (x - x0)) with ht
  set u := Int.fract (pixNumber L n (y - y0)) with hu
  have near := near_ramp (ζ := fun i j => ψ (pixPos (L / n) n j) (pixPos (L / n) n i)) p1 q1
    (a := ψ (x - x0) (y - y0) - t * (gx * (L / n)) - u * (gy * (L / n))) (B := gx * (L / n)) (C := gy * (L / n))
    (ρ := ε / 7776 * (L / n)) (by
      intro i j i0 i1 j0 j1
      obtain ⟨ej, bj⟩ := pixPos_near hL (by omega) hq q1 j0 j1
      obtain ⟨ei, bi⟩ := pixPos_near hL (by omega) hp p1 i0 i1
      have hnorm : ‖((pixPos (L / n) n j - (x - x0), pixPos (L / n) n i - (y - y0)) : ℝ × ℝ)‖ ≤ 2 * (L / n) := by
        rw [Prod.norm_def]
        exact max_le (by simpa using bj) (by simpa using bi)
      have h := @hball (pixPos (L / n) n j - (x - x0), pixPos (L / n) n i - (y - y0)) (by
        rw [dist_zero_right]; exact hnorm.trans_lt hs)
      rw [Real.norm_eq_abs] at h
      simp only [Prod.mk_add_mk, add_sub_cancel, add_apply, ContinuousLinearMap.smulRight_apply,
        ContinuousLinearMap.coe_fst', ContinuousLinearMap.coe_snd', smul_eq_mul] at h
      have h2 := h.trans (mul_le_mul_of_nonneg_left hnorm (by positivity))
      rw [ej, ei] at h2
      calc _ = |ψ (pixPos (L / n) n j) (pixPos (L / n) n i) - ψ (x - x0) (y - y0) - (((j : ℝ) - q - t) * (L / n) * gx
            + ((i : ℝ) - p - u) * (L / n) * gy)| := by congr 1; ring
        _ ≤ _ := h2
        _ = _ := by ring)
    (Int.fract_nonneg (pixNumber L n (x - x0))) (Int.fract_lt_one _).le (Int.fract_nonneg (pixNumber L n (y - y0)))
    (Int.fract_lt_one _).le
  obtain ⟨n1, n2, n11, n22, -⟩ := near
  refine ⟨_, _, _, _, _, hQ false true false, hQ false false true, ?_, ?_, ?_, ?_⟩
  · refine le_trans (le_of_eq ?_) (n1.trans (le_of_eq (by ring))); congr 1; simp only [ht]; ring
  · refine le_trans (le_of_eq ?_) (n2.trans (le_of_eq (by ring))); congr 1; simp only [hu]; ring
  · refine le_trans (le_of_eq ?_) (n11.trans (le_of_eq (by ring))); congr 1; simp only [ht]; ring
  · refine le_trans (le_of_eq ?_) (n22.trans (le_of_eq (by ring))); congr 1; simp only [hu]; ring

/-- The deflection in the limit of a fine map, where `ψ` has the gradient `(gx, gy)`: with `t`, `u` the position between the
neighbouring pixel centres, the code gives `6t(1-t)(gx + gy) - gy` and `6u(1-u)(gx + gy) - gx` instead of `gx` and `gy`. -/
theorem C121_deflection_partial {ψ : ℝ → ℝ → ℝ} {L x0 y0 x y gx gy : ℝ} (hL : 0 < L) (hx : |x - x0| < L / 2)
    (hy : |y - y0| < L / 2) (hψ : HasGrad ψ gx gy (x - x0) (y - y0)) :
    ∀ ε > 0, ∀ᶠ n : ℕ in atTop, ∃ a b, (sampledPotential ψ L x0 y0 n).deflection x y = .ok (a, b) ∧
      let t := Int.fract (pixNumber L n (x - x0))
      let u := Int.fract (pixNumber L n (y - y0))
      |a - (6 * t * (1 - t) * (gx + gy) - gy)| < ε ∧ |b - (6 * u * (1 - u) * (gx + gy) - gx)| < ε := by
  intro ε hε
  filter_upwards [sampled_near hL hx hy hψ (half_pos hε), eventually_ge_atTop 1] with n ⟨Y1, Y2, _, _, _, hq, _, h1, h2, _, _⟩ hn
  have ps : 0 < L / n := by have : (0 : ℝ) < n := by exact_mod_cast hn
                            positivity
  have step : ∀ Y v : ℝ, |Y - v * (L / n)| ≤ ε / 2 * (L / n) → |Y / (L / n) - v| < ε := by
    intro Y v h
    have : Y / (L / n) - v = (Y - v * (L / n)) / (L / n) := by field_simp
    rw [this, abs_div, abs_of_pos ps, div_lt_iff₀ ps]
    refine h.trans_lt (mul_lt_mul_of_pos_right (by linarith) ps)
  refine ⟨Y1 / (L / n), Y2 / (L / n), ?_, step _ _ h1, step _ _ h2⟩
  simp only [PixPot.deflection, hq]
  rfl

/-- The convergence in the limit of a fine map: times the pixel scale it tends to `6(1 - t - u)(gx + gy)`. -/
theorem C121_convergence_partial {ψ : ℝ → ℝ → ℝ} {L x0 y0 x y gx gy : ℝ} (hL : 0 < L) (hx : |x - x0| < L / 2)
    (hy : |y - y0| < L / 2) (hψ : HasGrad ψ gx gy (x - x0) (y - y0)) :
    ∀ ε > 0, ∀ᶠ n : ℕ in atTop, ∃ κ, (sampledPotential ψ L x0 y0 n).convergence x y = .ok κ ∧
      |κ * (L / n) - 6 * (1 - Int.fract (pixNumber L n (x - x0)) - Int.fract (pixNumber L n (y - y0))) * (gx + gy)| < ε := by
  intro ε hε
  filter_upwards [sampled_near hL hx hy hψ (half_pos hε), eventually_ge_atTop 1] with n ⟨_, _, Y11, Y22, Y12, _, hq, _, _, h1, h2⟩ hn
  have ps : 0 < L / n := by have : (0 : ℝ) < n := by exact_mod_cast hn
                            positivity
  refine ⟨(Y11 + Y22) / (2 * (L / n) ^ 2), by simp only [PixPot.convergence, hq]; rfl, ?_⟩
  have e : (Y11 + Y22) / (2 * (L / n) ^ 2) * (L / n) = (Y11 + Y22) / (2 * (L / n)) := by field_simp
  rw [e]
  set t := Int.fract (pixNumber L n (x - x0))
  set u := Int.fract (pixNumber L n (y - y0))
  have e2 : (Y11 + Y22) / (2 * (L / n)) - 6 * (1 - t - u) * (gx + gy)
      = ((Y11 - 6 * (1 - 2 * t) * (gx + gy) * (L / n)) + (Y22 - 6 * (1 - 2 * u) * (gx + gy) * (L / n))) / (2 * (L / n)) := by
    field_simp
    ring
  rw [e2, abs_div, abs_of_pos (by positivity : 0 < 2 * (L / n)), div_lt_iff₀ (by positivity)]
  refine (abs_add_le _ _).trans_lt ?_
  have : 0 < ε * (L / n) := by positivity
  linarith

theorem pixNumber_centre (L : ℝ) (k : ℕ) : Int.fract (pixNumber L (2 * k + 1) 0) = 0 := by
  have : pixNumber L (2 * k + 1) 0 = k := by unfold pixNumber; push_cast; ring
  rw [this, Int.fract_natCast]

/-- At the centre of maps with an odd number of pixels the deflection tends to `(-gy, -gx)`. -/
theorem C121_centre_partial {ψ : ℝ → ℝ → ℝ} {L x0 y0 gx gy : ℝ} (hL : 0 < L) (hψ : HasGrad ψ gx gy 0 0) :
    ∀ ε > 0, ∀ᶠ k : ℕ in atTop, ∃ a b, (sampledPotential ψ L x0 y0 (2 * k + 1)).deflection x0 y0 = .ok (a, b) ∧
      |a - -gy| < ε ∧ |b - -gx| < ε := by
  intro ε hε
  have h := C121_deflection_partial (x0 := x0) (y0 := y0) (x := x0) (y := y0) hL (by simpa using half_pos hL)
    (by simpa using half_pos hL) (by simpa using hψ) ε hε
  have g : Tendsto (fun k : ℕ => 2 * k + 1) atTop atTop :=
    tendsto_atTop_mono (fun k => (by omega : k ≤ 2 * k + 1)) tendsto_id
  filter_upwards [g.eventually h] with k ⟨a, b, hd, ha, hb⟩
  refine ⟨a, b, hd, ?_, ?_⟩
  · simpa [pixNumber_centre] using ha
  · simpa [pixNumber_centre] using hb

/-- The full claim: inside the map the deflection tends to the gradient of the potential as the map is refined. -/
def C121_statement : Prop :=
  ∀ (ψ : ℝ → ℝ → ℝ) (L x0 y0 x y gx gy : ℝ), 0 < L → |x - x0| < L / 2 → |y - y0| < L / 2 → HasGrad ψ gx gy (x - x0) (y - y0) →
    ∀ ε > 0, ∀ᶠ n : ℕ in atTop, ∃ a b, (sampledPotential ψ L x0 y0 n).deflection x y = .ok (a, b) ∧ |a - gx| < ε ∧ |b - gy| < ε

/-- The claim fails at the centre for every potential whose gradient is not of the form `(g, -g)`. -/
theorem C121_fails_centre {ψ : ℝ → ℝ → ℝ} {L x0 y0 gx gy : ℝ} (hL : 0 < L) (hψ : HasGrad ψ gx gy 0 0) (hg : gx + gy ≠ 0) :
    ¬ ∀ ε > 0, ∀ᶠ n : ℕ in atTop, ∃ a b, (sampledPotential ψ L x0 y0 n).deflection x0 y0 = .ok (a, b) ∧ |a - gx| < ε ∧
      |b - gy| < ε := by
  intro H
  have hε : 0 < |gx + gy| / 2 := by have := abs_pos.2 hg; positivity
  have g : Tendsto (fun k : ℕ => 2 * k + 1) atTop atTop :=
    tendsto_atTop_mono (fun k => (by omega : k ≤ 2 * k + 1)) tendsto_id
  obtain ⟨k, ⟨a, b, h1, ha, -⟩, ⟨a', b', h2, ha', -⟩⟩ := ((g.eventually (H _ hε)).and (C121_centre_partial hL hψ _ hε)).exists
  rw [h1] at h2
  obtain ⟨rfl, rfl⟩ := Prod.mk.inj (Except.ok.inj h2)
  have : |gx + gy| ≤ |a - gx| + |a - -gy| := by
    calc |gx + gy| = |(a - -gy) - (a - gx)| := by congr 1; ring
      _ ≤ |a - -gy| + |a - gx| := abs_sub _ _
      _ = _ := add_comm _ _
  linarith

theorem hasGrad_ramp (x y : ℝ) : HasGrad (fun x _ => x) 1 0 x y := by
  unfold HasGrad
  have h : HasFDerivAt (fun p : ℝ × ℝ => p.1) (ContinuousLinearMap.fst ℝ ℝ ℝ) (x, y) := hasFDerivAt_fst
  refine h.congr_fderiv ?_
  ext <;> simp

theorem C121_fails : ¬ C121_statement := fun H =>
  C121_fails_centre (L := 1) (x0 := 0) (y0 := 0) one_pos (hasGrad_ramp 0 0) (by norm_num)
    (H _ 1 0 0 0 0 1 0 one_pos (by norm_num) (by norm_num) (hasGrad_ramp _ _))

/-- At the centre of maps with an odd number of pixels the convergence exceeds every bound as the map is refined, unless the
gradient is of the form `(g, -g)`. -/
theorem C121_fails_convergence {ψ : ℝ → ℝ → ℝ} {L x0 y0 gx gy : ℝ} (hL : 0 < L) (hψ : HasGrad ψ gx gy 0 0) (hg : gx + gy ≠ 0)
    (M : ℝ) : ∀ᶠ k : ℕ in atTop, ∃ κ, (sampledPotential ψ L x0 y0 (2 * k + 1)).convergence x0 y0 = .ok κ ∧ M < |κ| := by
  have hε : 0 < |gx + gy| := abs_pos.2 hg
  have h := C121_convergence_partial (x0 := x0) (y0 := y0) (x := x0) (y := y0) hL (by simpa using half_pos hL)
    (by simpa using half_pos hL) (by simpa using hψ) _ hε
  have g : Tendsto (fun k : ℕ => 2 * k + 1) atTop atTop :=
    tendsto_atTop_mono (fun k => (by omega : k ≤ 2 * k + 1)) tendsto_id
  have small : ∀ᶠ n : ℕ in atTop, 2 * ((L * (|M| + 1)) / n) < |gx + gy| := pixel_small hε
  filter_upwards [g.eventually h, g.eventually small] with k ⟨κ, hκ, hb⟩ hs
  refine ⟨κ, hκ, ?_⟩
  have hn : (0 : ℝ) < ((2 * k + 1 : ℕ) : ℝ) := by positivity
  have ps : 0 < L / ((2 * k + 1 : ℕ) : ℝ) := by positivity
  rw [sub_self, sub_self, pixNumber_centre] at hb
  have h1 : 6 * |gx + gy| - |κ| * (L / ((2 * k + 1 : ℕ) : ℝ)) ≤ |κ * (L / ((2 * k + 1 : ℕ) : ℝ)) - 6 * (1 - 0 - 0) * (gx + gy)| := by
    have := abs_sub_abs_le_abs_sub (6 * (1 - 0 - 0) * (gx + gy)) (κ * (L / ((2 * k + 1 : ℕ) : ℝ)))
    rw [abs_sub_comm, abs_mul κ, abs_of_pos ps, abs_mul] at this
    norm_num at this ⊢
    linarith
  have h2 : (|M| + 1) * (L / ((2 * k + 1 : ℕ) : ℝ)) < |κ| * (L / ((2 * k + 1 : ℕ) : ℝ)) := by
    have e : (L * (|M| + 1)) / ((2 * k + 1 : ℕ) : ℝ) = (|M| + 1) * (L / ((2 * k + 1 : ℕ) : ℝ)) := by ring
    rw [e] at hs
    have : 0 < (|M| + 1) * (L / ((2 * k + 1 : ℕ) : ℝ)) := by positivity
    linarith
  have h3 := lt_of_mul_lt_mul_right h2 ps.le
  linarith [le_abs_self M]

/-- The theorems apply: a point off the centre, an elliptical potential. -/
example : ∀ ε > 0, ∀ᶠ n : ℕ in atTop,
    ∃ v, (sampledPotential (fun x y => Real.sqrt (x ^ 2 / 2 + 2 * y ^ 2)) 4 1 (-1) n).potential 2 0 = .ok v ∧
      |v - Real.sqrt ((2 - 1) ^ 2 / 2 + 2 * (0 - -1) ^ 2)| < ε :=
  C121_potential_partial (by norm_num) (by norm_num) (by norm_num) (by fun_prop)

end Caustics

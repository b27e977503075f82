import Mathlib.Analysis.Complex.Basic
import Mathlib.Analysis.Complex.Polynomial.Basic
import Mathlib.Algebra.Polynomial.Roots
import Mathlib.Data.Set.Card
import Mathlib.Tactic.FieldSimp
import Mathlib.Tactic.LinearCombination
import Mathlib.Tactic.Linarith
import Mathlib.Tactic.Positivity
import Mathlib.Tactic.ComputeDegree

/-!
The lens equation of a singular isothermal sphere in a uniform field of shear and convergence, in the axes of the shear.
-/

namespace Caustics

open Polynomial ComplexConjugate

/-- `(x, y)` is an image of `(b, c)`; `u`, `v` are the eigenvalues of the uniform part. -/
def QuadImage (u v R b c : ℝ) (p : ℝ × ℝ) : Prop :=
  p ≠ 0 ∧ (u - R / √(p.1 ^ 2 + p.2 ^ 2)) * p.1 = b ∧ (v - R / √(p.1 ^ 2 + p.2 ^ 2)) * p.2 = c

theorem quad_radius {p : ℝ × ℝ} (h : p ≠ 0) : 0 < √(p.1 ^ 2 + p.2 ^ 2) := by
  refine Real.sqrt_pos.2 ?_
  by_contra hc
  refine h (Prod.ext ?_ ?_) <;> simp only [Prod.fst_zero, Prod.snd_zero] <;>
    nlinarith [sq_nonneg p.1, sq_nonneg p.2]

variable {u v R b c : ℝ}

theorem quadImage_swap (p : ℝ × ℝ) : QuadImage u v R b c p ↔ QuadImage v u R c b p.swap := by
  simp only [QuadImage, Prod.fst_swap, Prod.snd_swap, add_comm (p.2 ^ 2)]
  refine and_congr ?_ and_comm
  simp [Prod.ext_iff, and_comm]

theorem set_bound_four {T : Set (ℝ × ℝ)} {p q r s : ℝ × ℝ} (h : ∀ w ∈ T, w = p ∨ w = q ∨ w = r ∨ w = s) :
    T.Finite ∧ T.ncard ≤ 4 := by
  classical
  have hsub : T ⊆ (({p, q, r, s} : Finset (ℝ × ℝ)) : Set (ℝ × ℝ)) := fun w hw => by simpa using h w hw
  refine ⟨(Finset.finite_toSet _).subset hsub, ?_⟩
  refine (Set.ncard_le_ncard hsub (Finset.finite_toSet _)).trans ?_
  rw [Set.ncard_coe_finset]
  exact Finset.card_le_four

theorem quad_axis (huv : u ≠ v) (hv : v ≠ 0) (hR : 0 < R) :
    {p | QuadImage u v R 0 c p}.Finite ∧ {p | QuadImage u v R 0 c p}.ncard ≤ 4 := by
  refine set_bound_four (p := (√((R / u) ^ 2 - (c / (v - u)) ^ 2), c / (v - u)))
    (q := (-√((R / u) ^ 2 - (c / (v - u)) ^ 2), c / (v - u))) (r := (0, (c + R) / v)) (s := (0, (c - R) / v)) ?_
  rintro ⟨x, y⟩ ⟨h0, h1, h2⟩
  have hr := quad_radius h0
  simp only at h1 h2 hr
  by_cases hx : x = 0
  · subst hx
    have hy : y ≠ 0 := by
      rintro rfl
      exact h0 rfl
    have e : √((0 : ℝ) ^ 2 + y ^ 2) = |y| := by rw [zero_pow two_ne_zero, zero_add, Real.sqrt_sq_eq_abs]
    rw [e] at h2
    rcases lt_or_gt_of_ne hy with hy | hy
    · rw [abs_of_neg hy] at h2
      refine .inr (.inr (.inr (Prod.ext rfl ?_)))
      simp only
      rw [eq_div_iff hv]
      field_simp at h2
      linarith
    · rw [abs_of_pos hy] at h2
      refine .inr (.inr (.inl (Prod.ext rfl ?_)))
      simp only
      rw [eq_div_iff hv]
      field_simp at h2
      linarith
  · have ht : R / √(x ^ 2 + y ^ 2) = u := by
      rcases mul_eq_zero.1 h1 with h | h
      · linarith
      · exact absurd h hx
    rw [ht] at h2
    have hvu : v - u ≠ 0 := sub_ne_zero.2 huv.symm
    have hy : y = c / (v - u) := by
      rw [eq_div_iff hvu]
      linarith
    have hxx : x ^ 2 = (R / u) ^ 2 - (c / (v - u)) ^ 2 := by
      have h3 : R / u = √(x ^ 2 + y ^ 2) := by
        rw [← ht]
        field_simp
      rw [h3, Real.sq_sqrt (by positivity), ← hy]
      ring
    rw [← hxx, ← hy, Real.sqrt_sq_eq_abs]
    rcases abs_choice x with h | h
    · exact .inl (by rw [h])
    · exact .inr (.inl (by rw [h, neg_neg]))

theorem quad_generic (hu : u ≠ 0) (hv : v ≠ 0) (hR : 0 < R) (hb : b ≠ 0) (hc : c ≠ 0) :
    {p | QuadImage u v R b c p}.Finite ∧ {p | QuadImage u v R b c p}.ncard ≤ 4 := by
  set P : ℝ[X] := C (b ^ 2) * X ^ 2 * (C v - X) ^ 2 + C (c ^ 2) * X ^ 2 * (C u - X) ^ 2 -
    C (R ^ 2) * (C u - X) ^ 2 * (C v - X) ^ 2 with hPdef
  have hP : P ≠ 0 := by
    intro h
    have := congrArg (eval 0) h
    simp [hPdef, hu, hv, hR.ne'] at this
  have hdeg : P.natDegree ≤ 4 := by
    rw [hPdef]
    compute_degree
  have hroot : ∀ p ∈ {p | QuadImage u v R b c p}, R / √(p.1 ^ 2 + p.2 ^ 2) ∈ (P.roots.toFinset : Set ℝ) := by
    rintro p ⟨h0, h1, h2⟩
    have hr := quad_radius h0
    have hsq := Real.sq_sqrt (show 0 ≤ p.1 ^ 2 + p.2 ^ 2 by positivity)
    set r := √(p.1 ^ 2 + p.2 ^ 2)
    simp only [Finset.mem_coe, Multiset.mem_toFinset, mem_roots', IsRoot]
    refine ⟨hP, ?_⟩
    simp only [hPdef, eval_sub, eval_add, eval_mul, eval_pow, eval_C, eval_X]
    have ht : (R / r) ^ 2 * (p.1 ^ 2 + p.2 ^ 2) = R ^ 2 := by
      rw [← hsq]
      field_simp
    rw [← h1, ← h2, ← ht]
    ring
  have hinj : Set.InjOn (fun p : ℝ × ℝ => R / √(p.1 ^ 2 + p.2 ^ 2)) {p | QuadImage u v R b c p} := by
    rintro p ⟨-, h1, h2⟩ q ⟨-, h3, h4⟩ he
    simp only at he
    rw [← he] at h3 h4
    refine Prod.ext ?_ ?_
    · refine mul_left_cancel₀ ?_ (h1.trans h3.symm)
      intro h
      rw [h, zero_mul] at h1
      exact hb h1.symm
    · refine mul_left_cancel₀ ?_ (h2.trans h4.symm)
      intro h
      rw [h, zero_mul] at h2
      exact hc h2.symm
  refine ⟨Set.Finite.of_injOn hroot hinj (Finset.finite_toSet _), ?_⟩
  refine (Set.ncard_le_ncard_of_injOn _ hroot hinj (Finset.finite_toSet _)).trans ?_
  rw [Set.ncard_coe_finset]
  exact (Multiset.toFinset_card_le _).trans ((card_roots' P).trans hdeg)

theorem quad_count (huv : u ≠ v) (hu : u ≠ 0) (hv : v ≠ 0) (hR : 0 < R) :
    {p | QuadImage u v R b c p}.Finite ∧ {p | QuadImage u v R b c p}.ncard ≤ 4 := by
  by_cases hb : b = 0
  · subst hb
    exact quad_axis huv hv hR
  by_cases hc : c = 0
  · subst hc
    have h := quad_axis (c := b) huv.symm hu hR
    have hm : Set.MapsTo Prod.swap {p | QuadImage u v R b 0 p} {p | QuadImage v u R 0 b p} := fun p hp =>
      (quadImage_swap p).1 hp
    exact ⟨Set.Finite.of_injOn hm Prod.swap_injective.injOn h.1,
      (Set.ncard_le_ncard_of_injOn _ hm Prod.swap_injective.injOn h.1).trans h.2⟩
  exact quad_generic hu hv hR hb hc

/-! ### Any direction of the shear -/

/-- `z` is an image of `ζ`. -/
def ShearImage (a R : ℝ) (g ζ z : ℂ) : Prop := z ≠ 0 ∧ (a : ℂ) * z - g * conj z - (R / ‖z‖ : ℝ) * z = ζ

theorem shear_axes (g : ℂ) : ∃ ρ : ℂ, ρ * conj ρ = 1 ∧ g * conj ρ = ‖g‖ * ρ := by
  by_cases hg : g = 0
  · exact ⟨1, by simp, by simp [hg]⟩
  have hn : (‖g‖ : ℂ) ≠ 0 := by simpa using hg
  obtain ⟨ρ, hρ⟩ := IsAlgClosed.exists_pow_nat_eq (g / ‖g‖) (n := 2) (by norm_num)
  have h1 : ‖ρ‖ = 1 := by
    have h2 : ‖ρ‖ ^ 2 = 1 := by
      rw [← norm_pow, hρ, norm_div, Complex.norm_real, norm_norm]
      exact div_self (norm_ne_zero_iff.2 hg)
    exact (pow_eq_one_iff_of_nonneg (norm_nonneg _) two_ne_zero).1 h2
  have h3 : ρ * conj ρ = 1 := by rw [Complex.mul_conj, Complex.normSq_eq_norm_sq, h1]; simp
  refine ⟨ρ, h3, ?_⟩
  have h4 : g = ‖g‖ * ρ ^ 2 := by
    rw [hρ]
    field_simp
  linear_combination conj ρ * h4 + ‖g‖ * ρ * h3

theorem shear_quad {a : ℝ} {g ζ ρ z : ℂ} (h1 : ρ * conj ρ = 1) (h2 : g * conj ρ = ‖g‖ * ρ) (h : ShearImage a R g ζ z) :
    QuadImage (a - ‖g‖) (a + ‖g‖) R (conj ρ * ζ).re (conj ρ * ζ).im ((conj ρ * z).re, (conj ρ * z).im) := by
  obtain ⟨h0, he⟩ := h
  set w := conj ρ * z with hw
  have hz : z = ρ * w := by
    rw [hw, ← mul_assoc, h1, one_mul]
  have hρ : ‖ρ‖ = 1 := by
    have h3 : ‖ρ‖ ^ 2 = 1 := by
      have := congrArg norm h1
      rwa [norm_mul, RCLike.norm_conj, norm_one, ← sq] at this
    exact (pow_eq_one_iff_of_nonneg (norm_nonneg _) two_ne_zero).1 h3
  have hn : ‖z‖ = ‖w‖ := by rw [hz, norm_mul, hρ, one_mul]
  have hw0 : w ≠ 0 := by
    rintro h
    rw [h, mul_zero] at hz
    exact h0 hz
  have key : (a : ℂ) * w - ‖g‖ * conj w - (R / ‖w‖ : ℝ) * w = conj ρ * ζ := by
    have hcz : conj z = conj ρ * conj w := by rw [hz, map_mul]
    clear_value w
    rw [← he, hn, hcz, hz]
    linear_combination -((a : ℂ) * w - (R / ‖w‖ : ℝ) * w) * h1 + conj ρ * conj w * h2 + (‖g‖ : ℂ) * conj w * h1
  have hnorm : ‖w‖ = √(w.re ^ 2 + w.im ^ 2) := by
    rw [Complex.norm_def, Complex.normSq_apply]
    ring_nf
  refine ⟨?_, ?_, ?_⟩
  · intro h
    exact hw0 (Complex.ext (congrArg Prod.fst h) (congrArg Prod.snd h))
  · simp only
    rw [← key, ← hnorm]
    simp only [Complex.sub_re, Complex.re_ofReal_mul, Complex.conj_re]
    ring
  · simp only
    rw [← key, ← hnorm]
    simp only [Complex.sub_im, Complex.im_ofReal_mul, Complex.conj_im]
    ring

theorem shear_count {a : ℝ} {g ζ : ℂ} (hg : g ≠ 0) (ha : a ^ 2 ≠ ‖g‖ ^ 2) (hR : 0 < R) :
    {z | ShearImage a R g ζ z}.Finite ∧ {z | ShearImage a R g ζ z}.ncard ≤ 4 := by
  obtain ⟨ρ, h1, h2⟩ := shear_axes g
  have hp : 0 < ‖g‖ := norm_pos_iff.2 hg
  have hq := quad_count (u := a - ‖g‖) (v := a + ‖g‖) (R := R) (b := (conj ρ * ζ).re) (c := (conj ρ * ζ).im)
    (by linarith) (fun h => ha (by linear_combination (a + ‖g‖) * h)) (fun h => ha (by linear_combination (a - ‖g‖) * h)) hR
  have hm : Set.MapsTo (fun z : ℂ => ((conj ρ * z).re, (conj ρ * z).im)) {z | ShearImage a R g ζ z}
      {p | QuadImage (a - ‖g‖) (a + ‖g‖) R (conj ρ * ζ).re (conj ρ * ζ).im p} := fun z hz => shear_quad h1 h2 hz
  have hinj : Function.Injective fun z : ℂ => ((conj ρ * z).re, (conj ρ * z).im) := by
    intro z w h
    have : conj ρ * z = conj ρ * w := Complex.ext (congrArg Prod.fst h) (congrArg Prod.snd h)
    have h3 := congrArg (ρ * ·) this
    simpa only [← mul_assoc, h1, one_mul] using h3
  exact ⟨Set.Finite.of_injOn hm hinj.injOn hq.1, (Set.ncard_le_ncard_of_injOn _ hm hinj.injOn hq.1).trans hq.2⟩

end Caustics

import Verif.Lemmas.RootFindSearch
import Verif.Props.ForwardRaytrace

/-! C75: `forward_raytrace` with the library's own root finder, on affine lenses. -/

namespace Caustics

open Matrix

variable {x0 y0 fov eps : ℝ} {n max_depth : ℕ} {a b c d e f : ℝ} {v : ℝ × ℝ}
  {jac : (Fin 2 → ℝ) → Matrix (Fin 2) (Fin 2) ℝ}

/-- The root finder, started anywhere on any number of points: on an invertible affine lens no linear
solve fails, there is a result for every start, and no result is further from the image than the
furthest start. -/
theorem C75_rootfind (hdet : a * d - b * c ≠ 0) (hjac : IsJacobian (affine a b c d e f) jac)
    (l : List (ℝ × ℝ)) {D : ℝ} (hD : ∀ q ∈ l, dist2 q v ≤ D) :
    ∃ l', forwardRaytraceRootfind (affine a b c d e f) jac (affine a b c d e f v) l = some l' ∧
      l'.length = l.length ∧ ∀ p ∈ l', dist2 p v ≤ D := by
  obtain ⟨l', h1, h2, h3⟩ := rootfind_affine hdet e f v le_rfl
    (fun p q => by rw [zero_mul]; exact Real.sqrt_nonneg _) hjac l
  refine ⟨l', h1, h2, fun p hp => ?_⟩
  obtain ⟨q, hq, hle, -⟩ := h3 p hp
  exact hle.trans (hD q hq)

/-- When the lens stretches all distances by at least `σ`, the points of the root finder are within the
tolerance `1e-4` of its stopping rule, up to the factor `√2 (1 + 1 / (11 σ²))`, or within `2^-41` of
the distance of the starts. -/
theorem C75_rootfind_accuracy {σ : ℝ} (hσ : 1 / 10 ^ 9 ≤ σ ^ 2) (hσ0 : 0 < σ)
    (hA : ∀ p q, σ * dist2 p q ≤ dist2 (affine a b c d e f p) (affine a b c d e f q))
    (hdet : a * d - b * c ≠ 0) (hjac : IsJacobian (affine a b c d e f) jac)
    (l : List (ℝ × ℝ)) {D : ℝ} (hD : ∀ q ∈ l, dist2 q v ≤ D) :
    ∃ l', forwardRaytraceRootfind (affine a b c d e f) jac (affine a b c d e f v) l = some l' ∧
      l'.length = l.length ∧
      ∀ p ∈ l', dist2 p v ≤ max ((1 + 1 / (11 * σ ^ 2)) * (√2 / 10 ^ 4)) (D / 2 ^ 41) := by
  obtain ⟨l', h1, h2, h3⟩ := rootfind_affine hdet e f v hσ0.le hA hjac l
  refine ⟨l', h1, h2, fun p hp => ?_⟩
  obtain ⟨q, hq, -, hle⟩ := h3 p hp
  refine (hle hσ).trans (max_le_max le_rfl ?_)
  have := hD q hq
  gcongr

/-- A round with small candidates starts the root finder within `4/3 epsilon` of the image. -/
theorem start_near {hdet : a * d - b * c ≠ 0} (hf : 0 < fov) (hn : 2 ≤ n)
    (hx : |v.1 - x0| ≤ fov / 2) (hy : |v.2 - y0| ≤ fov / 2) (he : 0 < eps) {j : ℕ}
    (hs : Small eps (candidates (affine a b c d e f) (affine a b c d e f v) (initialTriangles x0 y0 fov n) j)) :
    ∀ q ∈ (candidates (affine a b c d e f) (affine a b c d e f v) (initialTriangles x0 y0 fov n) j).map centroid,
      dist2 q v ≤ 4 / 3 * eps := by
  intro q hq
  obtain ⟨t, ht, rfl⟩ := List.mem_map.1 hq
  have hn1 : (0 : ℝ) < (n : ℝ) - 1 := by
    have : (2 : ℝ) ≤ n := by exact_mod_cast hn
    linarith
  have hc : 0 ≤ fov / ((n : ℝ) - 1) := by positivity
  have hin := (C34_affine hdet e f hf hn hx hy j).2 t ht
  have h1 := centroid_dist (within_candidates (fun t ht => within_initial hc ht) j t ht) hin
  refine h1.trans ?_
  obtain ⟨t', ht', hlt⟩ := hs
  rw [C33_area _ _ x0 y0 fov n j t' (List.mem_of_mem_head? ht')] at hlt
  have h4 : (4 : ℝ) ^ j = (2 ^ j) ^ 2 := by rw [← pow_mul, mul_comm, pow_mul]; norm_num
  have h5 : (√2 * (fov / ((n : ℝ) - 1) / 2 ^ j)) ^ 2 ≤ (2 * eps) ^ 2 := by
    rw [mul_pow, Real.sq_sqrt (by norm_num), mul_pow, div_pow, ← h4]
    rw [div_right_comm] at hlt
    linarith
  have h6 := (le_abs_self _).trans (abs_le_of_sq_le_sq h5 (by positivity))
  linarith

theorem search_found (hdet : a * d - b * c ≠ 0) (hjac : IsJacobian (affine a b c d e f) jac)
    (hf : 0 < fov) (hn : 2 ≤ n) (hx : |v.1 - x0| ≤ fov / 2) (hy : |v.2 - y0| ≤ fov / 2) (he : 0 < eps)
    {S : ℝ} (hS : ∀ p q, dist2 (affine a b c d e f p) (affine a b c d e f q) ≤ S * dist2 p q)
    (hdepth : (fov / ((n : ℝ) - 1)) ^ 2 / 2 / 4 ^ max_depth < eps ^ 2)
    (hdepth' : S * (fov / ((n : ℝ) - 1) / 2 ^ max_depth) < eps) :
    ∃ M j, lensForwardRaytrace (affine a b c d e f v) (affine a b c d e f) jac x0 y0 fov n eps max_depth =
        .ok (removeDuplicatePoints M eps) ∧ M ≠ [] ∧
      Small eps (candidates (affine a b c d e f) (affine a b c d e f v) (initialTriangles x0 y0 fov n) j) ∧
      ∀ p ∈ M, p ∈ (forwardRaytraceRootfind (affine a b c d e f) jac (affine a b c d e f v)
        ((candidates (affine a b c d e f) (affine a b c d e f v)
          (initialTriangles x0 y0 fov n) j).map centroid)).getD [] := by
  have hn1 : (0 : ℝ) < (n : ℝ) - 1 := by
    have : (2 : ℝ) ≤ n := by exact_mod_cast hn
    linarith
  have hc : 0 ≤ fov / ((n : ℝ) - 1) := by positivity
  have hne := fun k => (C34_affine hdet e f hf hn hx hy k).1
  have hlen : ∀ l, ((forwardRaytraceRootfind (affine a b c d e f) jac (affine a b c d e f v) l).getD []).length =
      l.length := by
    intro l
    obtain ⟨l', h1, h2, -⟩ := rootfind_affine hdet e f v le_rfl
      (fun p q => by rw [zero_mul]; exact Real.sqrt_nonneg _) hjac l
    rw [h1]; exact h2
  have hlast : Small eps (candidates (affine a b c d e f) (affine a b c d e f v)
      (initialTriangles x0 y0 fov n) max_depth) := by
    obtain ⟨t, r, ht⟩ := List.exists_cons_of_ne_nil (hne max_depth)
    refine ⟨t, by rw [ht]; rfl, ?_⟩
    rw [C33_area _ _ x0 y0 fov n max_depth t (by rw [ht]; simp)]
    exact hdepth
  have hhit : ∃ p ∈ (forwardRaytraceRootfind (affine a b c d e f) jac (affine a b c d e f v)
      ((candidates (affine a b c d e f) (affine a b c d e f v)
        (initialTriangles x0 y0 fov n) max_depth).map centroid)).getD [],
      dist2 (affine a b c d e f p) (affine a b c d e f v) < eps := by
    have hl := hlen ((candidates (affine a b c d e f) (affine a b c d e f v)
        (initialTriangles x0 y0 fov n) max_depth).map centroid)
    obtain ⟨l', h1, h2, h3⟩ := C75_rootfind (v := v) hdet hjac ((candidates (affine a b c d e f)
      (affine a b c d e f v) (initialTriangles x0 y0 fov n) max_depth).map centroid)
      (D := fov / ((n : ℝ) - 1) / 2 ^ max_depth) (fun q hq => by
        obtain ⟨t, ht, rfl⟩ := List.mem_map.1 hq
        have hin := (C34_affine hdet e f hf hn hx hy max_depth).2 t ht
        have h1 := centroid_dist (within_candidates (fun t ht => within_initial hc ht) max_depth t ht) hin
        refine h1.trans ?_
        have h2 : √2 ≤ 3 / 2 := Real.sqrt_le_iff.2 ⟨by norm_num, by norm_num⟩
        have h3 : 0 ≤ fov / ((n : ℝ) - 1) / 2 ^ max_depth := by positivity
        have := mul_le_mul_of_nonneg_right h2 h3
        linarith)
    rw [h1, Option.getD_some]
    have hpos : l' ≠ [] := by
      rw [← List.length_pos_iff, h2, List.length_map, List.length_pos_iff]
      exact hne max_depth
    obtain ⟨p, r, rfl⟩ := List.exists_cons_of_ne_nil hpos
    refine ⟨p, by simp, ?_⟩
    have hp := h3 p (by simp)
    by_cases hS0 : 0 ≤ S
    · exact ((hS p v).trans (mul_le_mul_of_nonneg_left hp hS0)).trans_lt hdepth'
    · refine (hS p v).trans_lt (lt_of_le_of_lt ?_ he)
      exact mul_nonpos_of_nonpos_of_nonneg (not_le.1 hS0).le (Real.sqrt_nonneg _)
  obtain ⟨M, r, h1, h2, j, -, h3, h4⟩ := frLoop_found (fun k _ => hne k) hlen hlast hhit max_depth 0 rfl
    (Nat.zero_le _) (initialTriangles x0 y0 fov n) none rfl
  refine ⟨M, j, ?_, h2, h3, h4⟩
  unfold lensForwardRaytrace forwardRaytrace
  rw [h1]

/-- On every invertible affine lens whose source has its image in the field of view, `forward_raytrace`
with enough depth returns at least one point, and only points within `4/3 epsilon` of the image. -/
theorem C75_finds_image (hdet : a * d - b * c ≠ 0) (hjac : IsJacobian (affine a b c d e f) jac)
    (hf : 0 < fov) (hn : 2 ≤ n) (hx : |v.1 - x0| ≤ fov / 2) (hy : |v.2 - y0| ≤ fov / 2) (he : 0 < eps)
    {S : ℝ} (hS : ∀ p q, dist2 (affine a b c d e f p) (affine a b c d e f q) ≤ S * dist2 p q)
    (hdepth : (fov / ((n : ℝ) - 1)) ^ 2 / 2 / 4 ^ max_depth < eps ^ 2)
    (hdepth' : S * (fov / ((n : ℝ) - 1) / 2 ^ max_depth) < eps) :
    ∃ l, lensForwardRaytrace (affine a b c d e f v) (affine a b c d e f) jac x0 y0 fov n eps max_depth =
        .ok l ∧ l ≠ [] ∧ ∀ p ∈ l, dist2 p v ≤ 4 / 3 * eps := by
  obtain ⟨M, j, h1, h2, h3, h4⟩ := search_found hdet hjac hf hn hx hy he hS hdepth hdepth'
  refine ⟨_, h1, ?_, fun p hp => ?_⟩
  · obtain ⟨p, q, rfl⟩ := List.exists_cons_of_ne_nil h2
    obtain ⟨r', hr'⟩ : ∃ r', removeDuplicatePoints (p :: q) eps = p :: r' := dedupLoop_head p q
    rw [hr']; exact List.cons_ne_nil _ _
  · have hp' := h4 p ((C32_points M he).1.subset hp)
    obtain ⟨l', k1, -, k3⟩ := C75_rootfind (v := v) hdet hjac _
      (start_near (hdet := hdet) hf hn hx hy he h3)
    rw [k1] at hp'
    exact k3 p hp'

/-- When moreover the lens does not compress too much for the tolerance of the root finder, the answer
is a single point: each image once. -/
theorem C75_single {σ : ℝ} (hσ0 : 0 < σ)
    (hA : ∀ p q, σ * dist2 p q ≤ dist2 (affine a b c d e f p) (affine a b c d e f q))
    (hdet : a * d - b * c ≠ 0) (hjac : IsJacobian (affine a b c d e f) jac)
    (hf : 0 < fov) (hn : 2 ≤ n) (hx : |v.1 - x0| ≤ fov / 2) (hy : |v.2 - y0| ≤ fov / 2) (he : 0 < eps)
    (hσ : 1 / 10 ^ 9 ≤ σ ^ 2) (heps : (1 + 1 / (11 * σ ^ 2)) * (√2 / 10 ^ 4) < eps / 2)
    {S : ℝ} (hS : ∀ p q, dist2 (affine a b c d e f p) (affine a b c d e f q) ≤ S * dist2 p q)
    (hdepth : (fov / ((n : ℝ) - 1)) ^ 2 / 2 / 4 ^ max_depth < eps ^ 2)
    (hdepth' : S * (fov / ((n : ℝ) - 1) / 2 ^ max_depth) < eps) :
    ∃ p, lensForwardRaytrace (affine a b c d e f v) (affine a b c d e f) jac x0 y0 fov n eps max_depth =
        .ok [p] ∧ dist2 p v ≤ max ((1 + 1 / (11 * σ ^ 2)) * (√2 / 10 ^ 4)) (4 / 3 * eps / 2 ^ 41) := by
  obtain ⟨M, j, h1, h2, h3, h4⟩ := search_found hdet hjac hf hn hx hy he hS hdepth hdepth'
  have hall : ∀ p ∈ M, dist2 p v ≤ max ((1 + 1 / (11 * σ ^ 2)) * (√2 / 10 ^ 4)) (4 / 3 * eps / 2 ^ 41) := by
    intro p hp
    have hp' := h4 p hp
    obtain ⟨l', k1, -, k3⟩ := C75_rootfind_accuracy (v := v) hσ hσ0 hA hdet hjac _
      (start_near (hdet := hdet) hf hn hx hy he h3)
    rw [k1] at hp'
    exact k3 p hp'
  have hhalf : ∀ p ∈ M, dist2 p v < eps / 2 := fun p hp =>
    (hall p hp).trans_lt (max_lt heps (by norm_num; linarith))
  obtain ⟨p, q, rfl⟩ := List.exists_cons_of_ne_nil h2
  obtain ⟨r', hr'⟩ : ∃ r', removeDuplicatePoints (p :: q) eps = p :: r' := dedupLoop_head p q
  have hpw := (C32_points (p :: q) he).2.2.1
  have hsub := (C32_points (p :: q) he).1.subset
  rw [hr'] at hpw hsub h1
  cases r' with
  | nil => exact ⟨p, h1, hall p (by simp)⟩
  | cons z w =>
    exfalso
    have hz := hhalf z (hsub (by simp))
    have hp := hhalf p (by simp)
    have h5 := (List.pairwise_cons.1 hpw).1 z (by simp)
    have h6 : dist2 p z ≤ dist2 p v + dist2 z v := by
      rw [dist2_nrm, dist2_nrm, dist2_nrm]
      have := nrm_sub_le (vecOf p - vecOf v) (vecOf z - vecOf v)
      rwa [sub_sub_sub_cancel_right] at this
    linarith

theorem sheetShear_affine (xs ys kappa xg yg gamma1 gamma2 : ℝ) :
    sheetShearRaytrace xs ys kappa xg yg gamma1 gamma2 =
      affine (1 - kappa - gamma1) (-gamma2) (-gamma2) (1 - kappa + gamma1)
        (kappa * xs + gamma1 * xg + gamma2 * yg) (kappa * ys + gamma2 * xg - gamma1 * yg) := by
  funext p
  unfold sheetShearRaytrace affine sheetDeflection shearDeflection translateRotate
  ext
  · simp; ring
  · simp; ring

theorem sheetShear_stretch (xs ys kappa xg yg gamma1 gamma2 : ℝ) (p q : ℝ × ℝ) :
    |(|1 - kappa| - √(gamma1 ^ 2 + gamma2 ^ 2))| * dist2 p q ≤
        dist2 (sheetShearRaytrace xs ys kappa xg yg gamma1 gamma2 p)
          (sheetShearRaytrace xs ys kappa xg yg gamma1 gamma2 q) ∧
      dist2 (sheetShearRaytrace xs ys kappa xg yg gamma1 gamma2 p)
          (sheetShearRaytrace xs ys kappa xg yg gamma1 gamma2 q) ≤
        (|1 - kappa| + √(gamma1 ^ 2 + gamma2 ^ 2)) * dist2 p q := by
  rw [sheetShear_affine]
  set u : Fin 2 → ℝ := vecOf p - vecOf q with hu
  set U : Fin 2 → ℝ := (1 - kappa) • u with hU
  set G : Fin 2 → ℝ := ![gamma1 * u 0 + gamma2 * u 1, gamma2 * u 0 - gamma1 * u 1] with hG
  have e1 : dist2 p q = nrm u := dist2_nrm p q
  have e2 : dist2 (affine (1 - kappa - gamma1) (-gamma2) (-gamma2) (1 - kappa + gamma1)
        (kappa * xs + gamma1 * xg + gamma2 * yg) (kappa * ys + gamma2 * xg - gamma1 * yg) p)
      (affine (1 - kappa - gamma1) (-gamma2) (-gamma2) (1 - kappa + gamma1)
        (kappa * xs + gamma1 * xg + gamma2 * yg) (kappa * ys + gamma2 * xg - gamma1 * yg) q) = nrm (U - G) := by
    rw [dist2_nrm]
    congr 1
    funext i
    fin_cases i
    · simp [hU, hG, hu, vecOf, affine]; ring
    · simp [hU, hG, hu, vecOf, affine]; ring
  have e3 : nrm U = |1 - kappa| * nrm u := by
    unfold nrm
    rw [← Real.sqrt_sq_eq_abs, ← Real.sqrt_mul (sq_nonneg _)]
    congr 1
    simp [hU, dotProduct, Fin.sum_univ_two]; ring
  have e4 : nrm G = √(gamma1 ^ 2 + gamma2 ^ 2) * nrm u := by
    unfold nrm
    rw [← Real.sqrt_mul (by positivity)]
    congr 1
    simp [hG, dotProduct, Fin.sum_univ_two]; ring
  rw [e1, e2]
  have t1 := nrm_sub_le U G
  have t2 : nrm U ≤ nrm (U - G) + nrm G := by
    have := nrm_sub_le (U - G) (-G)
    rwa [sub_neg_eq_add, sub_add_cancel, nrm_neg] at this
  have t3 : nrm G ≤ nrm (U - G) + nrm U := by
    have := nrm_sub_le U (U - G)
    rw [sub_sub_cancel] at this
    linarith
  rw [e3, e4] at t1 t2 t3
  constructor
  · rw [← abs_of_nonneg (nrm_nonneg u), ← abs_mul, sub_mul, abs_le]
    constructor <;> linarith
  · linarith

/-- The claim for the lens model of a mass sheet with external shear (convergence `κ`, shear `γ`), away
from the critical values `|1 - κ| = γ`. -/
theorem C75_sheet_shear {xs ys kappa xg yg gamma1 gamma2 : ℝ}
    (hjac : IsJacobian (sheetShearRaytrace xs ys kappa xg yg gamma1 gamma2) jac)
    (hmag : |1 - kappa| ≠ √(gamma1 ^ 2 + gamma2 ^ 2))
    (hσ : 1 / 10 ^ 9 ≤ (|1 - kappa| - √(gamma1 ^ 2 + gamma2 ^ 2)) ^ 2)
    (heps : (1 + 1 / (11 * (|1 - kappa| - √(gamma1 ^ 2 + gamma2 ^ 2)) ^ 2)) * (√2 / 10 ^ 4) < eps / 2)
    (hf : 0 < fov) (hn : 2 ≤ n) (hx : |v.1 - x0| ≤ fov / 2) (hy : |v.2 - y0| ≤ fov / 2) (he : 0 < eps)
    (hdepth : (fov / ((n : ℝ) - 1)) ^ 2 / 2 / 4 ^ max_depth < eps ^ 2)
    (hdepth' : (|1 - kappa| + √(gamma1 ^ 2 + gamma2 ^ 2)) * (fov / ((n : ℝ) - 1) / 2 ^ max_depth) < eps) :
    ∃ p, lensForwardRaytrace (sheetShearRaytrace xs ys kappa xg yg gamma1 gamma2 v)
        (sheetShearRaytrace xs ys kappa xg yg gamma1 gamma2) jac x0 y0 fov n eps max_depth = .ok [p] ∧
      dist2 p v < eps / 2 := by
  have hs := sheetShear_stretch xs ys kappa xg yg gamma1 gamma2
  have hne : |1 - kappa| - √(gamma1 ^ 2 + gamma2 ^ 2) ≠ 0 := sub_ne_zero.2 hmag
  have hdet : (1 - kappa - gamma1) * (1 - kappa + gamma1) - -gamma2 * -gamma2 ≠ 0 := by
    have h1 : (1 - kappa - gamma1) * (1 - kappa + gamma1) - -gamma2 * -gamma2 =
        (|1 - kappa| - √(gamma1 ^ 2 + gamma2 ^ 2)) * (|1 - kappa| + √(gamma1 ^ 2 + gamma2 ^ 2)) := by
      have h2 := Real.sq_sqrt (show 0 ≤ gamma1 ^ 2 + gamma2 ^ 2 by positivity)
      have h3 := sq_abs (1 - kappa)
      linear_combination h2 - h3
    rw [h1]
    refine mul_ne_zero hne fun h0 => hmag ?_
    have h2 := abs_nonneg (1 - kappa)
    have h3 := Real.sqrt_nonneg (gamma1 ^ 2 + gamma2 ^ 2)
    linarith
  rw [← sq_abs] at hσ heps
  rw [sheetShear_affine] at hjac hs ⊢
  obtain ⟨p, h1, h2⟩ := C75_single (abs_pos.2 hne) (fun p q => (hs p q).1) hdet hjac hf hn hx hy he hσ heps
    (fun p q => (hs p q).2) hdepth hdepth'
  exact ⟨p, h1, h2.trans_lt (max_lt heps (by norm_num; linarith))⟩

-- the defaults of `forward_raytrace`: field of view 5, 100 grid points, `epsilon = 1e-3`, depth 25; a
-- sheet of convergence 1/2 with shear (3/50, 4/50), any image position in the field of view
example {v : ℝ × ℝ} (hx : |v.1 - 0| ≤ 5 / 2) (hy : |v.2 - 0| ≤ 5 / 2) :
    ∃ p, lensForwardRaytrace (sheetShearRaytrace 0 0 (1 / 2) 0 0 (3 / 50) (4 / 50) v)
        (sheetShearRaytrace 0 0 (1 / 2) 0 0 (3 / 50) (4 / 50))
        (fun _ => !![1 - 1 / 2 - 3 / 50, -(4 / 50); -(4 / 50), 1 - 1 / 2 + 3 / 50])
        0 0 5 100 (1 / 1000) 25 = .ok [p] ∧ dist2 p v < 1 / 1000 / 2 := by
  have h1 : √((3 / 50 : ℝ) ^ 2 + (4 / 50) ^ 2) = 1 / 10 := by
    rw [show (3 / 50 : ℝ) ^ 2 + (4 / 50) ^ 2 = (1 / 10) ^ 2 by norm_num]
    exact Real.sqrt_sq (by norm_num)
  have h2 : |(1 : ℝ) - 1 / 2| = 1 / 2 := by rw [abs_of_nonneg] <;> norm_num
  have h3 : √2 < (3 / 2 : ℝ) := by rw [Real.sqrt_lt' (by norm_num)]; norm_num
  refine C75_sheet_shear (by rw [sheetShear_affine]; exact isJacobian_affine _ _ _ _ _ _) ?_ ?_ ?_ (by norm_num) (by norm_num) hx hy (by norm_num) (by norm_num) ?_
  · rw [h1, h2]; norm_num
  · rw [h1, h2]; norm_num
  · rw [h1, h2]; norm_num; linarith
  · rw [h1, h2]; norm_num

end Caustics

import Verif.Lemmas.RootFind
import Verif.Lemmas.ForwardRaytrace
import Mathlib.Analysis.Calculus.FDeriv.Add
import Mathlib.Analysis.Calculus.FDeriv.Linear

/-! The search with its own root finder: extents of the candidate triangles, the root finder as a map
of lists, and the loop. -/

namespace Caustics

open Matrix

/-! ### Extents -/

/-- Every two vertices differ by at most `ℓ` in each coordinate. -/
def Tri.Within (t : Tri ℝ) (l : ℝ) : Prop :=
  (|t.p1.1 - t.p0.1| ≤ l ∧ |t.p1.2 - t.p0.2| ≤ l) ∧ (|t.p2.1 - t.p0.1| ≤ l ∧ |t.p2.2 - t.p0.2| ≤ l) ∧
    (|t.p2.1 - t.p1.1| ≤ l ∧ |t.p2.2 - t.p1.2| ≤ l)

theorem within_neighbors {p q : Tri ℝ} {l : ℝ} (h : p.Within l) (hq : q ∈ triangleNeighbors p) :
    q.Within l := by
  obtain ⟨⟨a1, a2⟩, ⟨b1, b2⟩, c1, c2⟩ := h
  rw [abs_le] at a1 a2 b1 b2 c1 c2
  simp only [triangleNeighbors, List.mem_cons, List.not_mem_nil, or_false] at hq
  simp only [Tri.Within, abs_le]
  rcases hq with rfl | rfl | rfl | rfl | rfl | rfl | rfl | rfl | rfl | rfl | rfl | rfl | rfl <;>
    (try simp only [Tri.shift, Prod.fst_add, Prod.snd_add, Prod.fst_sub, Prod.snd_sub, Prod.fst_neg,
      Prod.snd_neg]) <;>
    refine ⟨⟨⟨?_, ?_⟩, ?_, ?_⟩, ⟨⟨?_, ?_⟩, ?_, ?_⟩, ⟨?_, ?_⟩, ?_, ?_⟩ <;> linarith

theorem within_upsample {p q : Tri ℝ} {l : ℝ} (h : p.Within l) (hq : q ∈ triangleUpsample p) :
    q.Within (l / 2) := by
  obtain ⟨⟨a1, a2⟩, ⟨b1, b2⟩, c1, c2⟩ := h
  rw [abs_le] at a1 a2 b1 b2 c1 c2
  simp only [triangleUpsample, List.mem_cons, List.not_mem_nil, or_false] at hq
  simp only [Tri.Within, abs_le]
  rcases hq with rfl | rfl | rfl | rfl <;> simp only [midpt] <;>
    refine ⟨⟨⟨?_, ?_⟩, ?_, ?_⟩, ⟨⟨?_, ?_⟩, ?_, ?_⟩, ⟨?_, ?_⟩, ?_, ?_⟩ <;> linarith

theorem within_initial {x0 y0 fov : ℝ} {n : ℕ} (hc : 0 ≤ fov / ((n : ℝ) - 1)) {t : Tri ℝ}
    (ht : t ∈ initialTriangles x0 y0 fov n) : t.Within (fov / ((n : ℝ) - 1)) := by
  obtain ⟨i, j, -, -, rfl | rfl⟩ := mem_initial.1 ht <;>
    simp only [Tri.Within, abs_le, gridNode] <;> push_cast <;>
    refine ⟨⟨⟨?_, ?_⟩, ?_, ?_⟩, ⟨⟨?_, ?_⟩, ?_, ?_⟩, ⟨?_, ?_⟩, ?_, ?_⟩ <;> linarith

theorem within_candidates {R : ℝ × ℝ → ℝ × ℝ} {s : ℝ × ℝ} {E0 : List (Tri ℝ)} {l : ℝ}
    (h0 : ∀ t ∈ E0, t.Within l) (k : ℕ) : ∀ t ∈ candidates R s E0 k, t.Within (l / 2 ^ k) := by
  induction k with
  | zero =>
    intro t ht
    rw [pow_zero, div_one]
    exact h0 t (mem_locate.1 ht).1
  | succ k ih =>
    intro t ht
    have h := (mem_locate.1 ht).1
    unfold refineTriangles at h
    obtain ⟨q, hq, ht⟩ := List.mem_flatMap.1 h
    have hq' : q ∈ (candidates R s E0 k).flatMap triangleNeighbors := by
      have := (dedupLoop_sublist (close := triangleEquals) []
        ((candidates R s E0 k).flatMap triangleNeighbors)).subset hq
      simpa using this
    obtain ⟨p, hp, hn⟩ := List.mem_flatMap.1 hq'
    rw [pow_succ, ← div_div]
    exact within_upsample (within_neighbors (ih p hp) hn) ht

theorem avg_dist {a b c w0 w1 w2 l : ℝ} (h0 : 0 ≤ w0) (h1 : 0 ≤ w1) (h2 : 0 ≤ w2) (hw : w0 + w1 + w2 = 1)
    (hb : |b - a| ≤ l) (hc : |c - a| ≤ l) (hd : |c - b| ≤ l) :
    |(a + b + c) / 3 - (w0 * a + w1 * b + w2 * c)| ≤ 2 / 3 * l := by
  rw [abs_le] at hb hc hd
  have e0 : w0 = 1 - w1 - w2 := by linarith
  have ka : |(a + b + c) / 3 - a| ≤ 2 / 3 * l := by rw [abs_le]; constructor <;> linarith
  have kb : |(a + b + c) / 3 - b| ≤ 2 / 3 * l := by rw [abs_le]; constructor <;> linarith
  have kc : |(a + b + c) / 3 - c| ≤ 2 / 3 * l := by rw [abs_le]; constructor <;> linarith
  rw [abs_le] at ka kb kc ⊢
  have := mul_le_mul_of_nonneg_left ka.1 h0
  have := mul_le_mul_of_nonneg_left ka.2 h0
  have := mul_le_mul_of_nonneg_left kb.1 h1
  have := mul_le_mul_of_nonneg_left kb.2 h1
  have := mul_le_mul_of_nonneg_left kc.1 h2
  have := mul_le_mul_of_nonneg_left kc.2 h2
  subst e0
  constructor <;> linarith

theorem centroid_dist {t : Tri ℝ} {l : ℝ} (h : t.Within l) {v : ℝ × ℝ} (hv : InTri t v) :
    dist2 (centroid t) v ≤ 2 / 3 * √2 * l := by
  obtain ⟨⟨a1, a2⟩, ⟨b1, b2⟩, c1, c2⟩ := h
  obtain ⟨w0, w1, w2, h0, h1, h2, hw, rfl⟩ := hv
  have hl : 0 ≤ l := (abs_nonneg _).trans a1
  have hx := avg_dist h0 h1 h2 hw a1 b1 c1
  have hy := avg_dist h0 h1 h2 hw a2 b2 c2
  unfold dist2 centroid
  refine Real.sqrt_le_iff.2 ⟨by positivity, ?_⟩
  rw [mul_pow, mul_pow, Real.sq_sqrt (by norm_num)]
  have hx2 := sq_le_sq' (abs_le.1 hx).1 (abs_le.1 hx).2
  have hy2 := sq_le_sq' (abs_le.1 hy).1 (abs_le.1 hy).2
  simp only [Prod.fst_add, Prod.snd_add, Prod.smul_fst, Prod.smul_snd, smul_eq_mul]
  rw [mul_pow] at hx2 hy2
  linarith

/-! ### The root finder as a map of lists -/

theorem dist2_nrm (p q : ℝ × ℝ) : dist2 p q = nrm (vecOf p - vecOf q) := by
  unfold dist2 nrm vecOf
  congr 1
  simp [dotProduct, Fin.sum_univ_two, sq]

/-- `jac` is the Jacobian matrix of the map of the plane. -/
def IsJacobian (R : ℝ × ℝ → ℝ × ℝ) (jac : (Fin 2 → ℝ) → Matrix (Fin 2) (Fin 2) ℝ) : Prop :=
  ∀ x u, jac x *ᵥ u = fderiv ℝ (fun y : Fin 2 → ℝ => vecOf (R (y 0, y 1))) x u

theorem vecOf_affine (a b c d e f : ℝ) (y : Fin 2 → ℝ) :
    vecOf (affine a b c d e f (y 0, y 1)) = !![a, b; c, d] *ᵥ y + ![e, f] := by
  funext i
  fin_cases i <;> simp [vecOf, affine, dotProduct, Fin.sum_univ_two]

theorem isJacobian_affine (a b c d e f : ℝ) :
    IsJacobian (affine a b c d e f) fun _ => !![a, b; c, d] := by
  intro x u
  have hf : (fun y : Fin 2 → ℝ => vecOf (affine a b c d e f (y 0, y 1))) =
      fun y => (Matrix.toLin' !![a, b; c, d]).toContinuousLinearMap y + ![e, f] := by
    funext y
    rw [vecOf_affine]
    rfl
  rw [hf, fderiv_add_const, ContinuousLinearMap.fderiv]
  rfl

theorem jacobian_affine {a b c d e f : ℝ} {jac : (Fin 2 → ℝ) → Matrix (Fin 2) (Fin 2) ℝ}
    (h : IsJacobian (affine a b c d e f) jac) : jac = fun _ => !![a, b; c, d] := by
  funext x
  refine Matrix.toLin'.injective (LinearMap.ext fun u => ?_)
  rw [Matrix.toLin'_apply, Matrix.toLin'_apply, h x u, isJacobian_affine a b c d e f x u]

theorem det_two (a b c d : ℝ) : (!![a, b; c, d] : Matrix (Fin 2) (Fin 2) ℝ).det = a * d - b * c := by
  rw [Matrix.det_fin_two]; rfl

/-- On an invertible affine lens the root finder succeeds, and its points are at least as good as the
starting points; with a lower bound on the stretching they are close to the image. -/
theorem rootfind_affine {a b c d : ℝ} (hdet : a * d - b * c ≠ 0) (e f : ℝ) (v : ℝ × ℝ) {σ : ℝ}
    (hσ : 0 ≤ σ) (hA : ∀ p q, σ * dist2 p q ≤ dist2 (affine a b c d e f p) (affine a b c d e f q))
    {jac : (Fin 2 → ℝ) → Matrix (Fin 2) (Fin 2) ℝ} (hjac : IsJacobian (affine a b c d e f) jac)
    (l : List (ℝ × ℝ)) :
    ∃ l', forwardRaytraceRootfind (affine a b c d e f) jac (affine a b c d e f v) l = some l' ∧
      l'.length = l.length ∧ ∀ p ∈ l', ∃ q ∈ l, dist2 p v ≤ dist2 q v ∧
        (1 / 10 ^ 9 ≤ σ ^ 2 →
          dist2 p v ≤ max ((1 + 1 / (11 * σ ^ 2)) * (√2 / 10 ^ 4)) (dist2 q v / 2 ^ 41)) := by
  have hA2 : ∀ u : Fin 2 → ℝ, σ ^ 2 * (u ⬝ᵥ u) ≤ (!![a, b; c, d] *ᵥ u) ⬝ᵥ (!![a, b; c, d] *ᵥ u) := by
    intro u
    have h := hA (u 0, u 1) (0, 0)
    rw [← nrm_sq, ← nrm_sq, ← mul_pow]
    refine pow_le_pow_left₀ (mul_nonneg hσ (nrm_nonneg _)) ?_ 2
    rw [dist2_nrm, dist2_nrm, vecOf_affine a b c d e f u] at h
    have h0 : vecOf (affine a b c d e f (0, 0)) = ![e, f] := by simp [vecOf, affine]
    have h1 : vecOf (u 0, u 1) - vecOf (0, 0) = u := by
      funext i; fin_cases i <;> simp [vecOf]
    rwa [h0, h1, add_sub_cancel_right] at h
  have hv : vecOf (affine a b c d e f v) = !![a, b; c, d] *ᵥ vecOf v + ![e, f] := by
    rw [← vecOf_affine]; rfl
  obtain ⟨X', L', C', h, hX⟩ := lm_affine_loop (B := l.length) !![a, b; c, d] (by rw [det_two]; exact hdet)
    ![e, f] (vecOf v) (sq_nonneg σ) hA2 (fun b => dist2 l[b] v) (fun b => Real.sqrt_nonneg _)
    LMThird.chi2 50 0 (fun b => vecOf l[b]) (fun _ => 1) (.cov fun _ => .diag fun _ => 1) rfl
    (fun _ => one_pos) (fun _ _ => rfl) (fun b => (dist2_nrm _ _).ge)
    (fun b => Or.inr ⟨by norm_num [lam], fun _ => by
      rw [fac, show 0 - 9 = 0 from rfl, pow_zero, div_one, mul_one]; exact (dist2_nrm _ _).ge⟩)
  refine ⟨List.ofFn fun b => (X' b 0, X' b 1), ?_, by simp, ?_⟩
  · unfold forwardRaytraceRootfind batchLm
    rw [jacobian_affine hjac, hv]
    simp only [vecOf_affine]
    rw [h]
    rfl
  · intro p hp
    rw [List.mem_ofFn] at hp
    obtain ⟨i, rfl⟩ := hp
    obtain ⟨h1, h2⟩ := hX i
    have e1 : vecOf (X' i 0, X' i 1) = X' i := by
      funext k; fin_cases k <;> simp [vecOf]
    refine ⟨l[i], List.getElem_mem _, ?_, fun hs => ?_⟩
    · rw [dist2_nrm (X' i 0, X' i 1), e1]; exact h1
    · rw [dist2_nrm (X' i 0, X' i 1), e1]
      have := h2 hs
      rwa [fac, mul_one_div] at this

/-! ### The loop -/

section
variable {R : ℝ × ℝ → ℝ × ℝ} {rf : List (ℝ × ℝ) → List (ℝ × ℝ)} {s : ℝ × ℝ} {eps : ℝ}

/-- When there are candidates in every round, the first is small in the last round, and some point of
the last round is mapped onto the source, the loop returns points of a single round with small
candidates, and at least one. -/
theorem frLoop_found {E0 : List (Tri ℝ)} {md : ℕ} (hne : ∀ k ≤ md, candidates R s E0 k ≠ [])
    (hlen : ∀ l, (rf l).length = l.length) (hlast : Small eps (candidates R s E0 md))
    (hhit : ∃ p ∈ rf ((candidates R s E0 md).map centroid), dist2 (R p) s < eps) (m i : ℕ)
    (hm : md - i = m) (hi : i ≤ md) (E : List (Tri ℝ)) (Emid : Option (List (ℝ × ℝ)))
    (hE : locate R s (if i > 0 then refineTriangles E else E) = candidates R s E0 i) :
    ∃ (M : List (ℝ × ℝ)) (r : ℕ), frLoop R rf s eps md i E Emid = .ok (M, r) ∧ M ≠ [] ∧
      ∃ j ≤ md, Small eps (candidates R s E0 j) ∧ ∀ p ∈ M, p ∈ rf ((candidates R s E0 j).map centroid) := by
  classical
  induction m generalizing i E Emid with
  | zero =>
    obtain rfl : i = md := by omega
    obtain ⟨t, r, ht⟩ := List.exists_cons_of_ne_nil (hne i le_rfl)
    have hs : triangleArea t < eps ^ 2 := by
      obtain ⟨t', h1, h2⟩ := hlast
      rw [ht, List.head?_cons, Option.some.injEq] at h1
      exact h1 ▸ h2
    by_cases hc : (List.zipWith triangleContains (t :: r) (rf ((t :: r).map centroid))).all id = true ∧
        ∀ p ∈ rf ((t :: r).map centroid), HitsSource R s eps p
    · rw [frLoop_small_done (hE.trans ht) hs hc.1 hc.2]
      refine ⟨_, _, rfl, ?_, i, le_rfl, hlast, ?_⟩
      · rw [← List.length_pos_iff, hlen]; simp
      · rw [ht]; exact fun p hp => hp
    · rw [frLoop_small (hE.trans ht) hs hc, if_pos (by omega)]
      refine ⟨_, _, rfl, ?_, i, le_rfl, hlast, ?_⟩
      · obtain ⟨p, hp, hd⟩ := hhit
        rw [ht] at hp
        exact List.ne_nil_of_mem (List.mem_filter.2 ⟨hp, by simpa using hd⟩)
      · rw [ht]; exact fun p hp => (List.mem_filter.1 hp).1
  | succ m ih =>
    obtain ⟨t, r, ht⟩ := List.exists_cons_of_ne_nil (hne i hi)
    by_cases hs : triangleArea t < eps ^ 2
    · by_cases hc : (List.zipWith triangleContains (t :: r) (rf ((t :: r).map centroid))).all id = true ∧
          ∀ p ∈ rf ((t :: r).map centroid), HitsSource R s eps p
      · rw [frLoop_small_done (hE.trans ht) hs hc.1 hc.2]
        refine ⟨_, _, rfl, ?_, i, hi, ⟨t, by rw [ht]; rfl, hs⟩, ?_⟩
        · rw [← List.length_pos_iff, hlen]; simp
        · rw [ht]; exact fun p hp => hp
      · rw [frLoop_small (hE.trans ht) hs hc, if_neg (by omega), ← ht]
        exact ih (i + 1) (by omega) (by omega) _ _ locate_step
    · rw [frLoop_large (hE.trans ht) hs, if_neg (by omega), ← ht]
      exact ih (i + 1) (by omega) (by omega) _ _ locate_step

end

end Caustics

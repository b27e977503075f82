import Verif.Lemmas.MeshSearch
import Verif.Spec.RegularImages
import Verif.Props.ForwardRaytrace
import Verif.Props.ObservedFlux
import Mathlib.Analysis.Calculus.ContDiff.Operations
import Mathlib.Analysis.Calculus.ContDiff.RCLike
import Mathlib.Analysis.SpecialFunctions.Sqrt
import Mathlib.Analysis.Complex.Norm

/-! C59 for regular images: what the image search of a general lens does find. -/

namespace Caustics

open Real Metric

variable {R : ℝ × ℝ → ℝ × ℝ} {rf : List (ℝ × ℝ) → List (ℝ × ℝ)} {s v : ℝ × ℝ} {eps η x0 y0 fov r : ℝ}
  {n max_depth : ℕ}

theorem affine_linear_sub (a b c d : ℝ) (p q : ℝ × ℝ) :
    affine a b c d 0 0 p - affine a b c d 0 0 q = affine a b c d 0 0 (p - q) := by
  unfold affine
  ext <;> simp <;> ring

theorem locate_comp_affine {a b c d : ℝ} (h : a * d - b * c ≠ 0) (e f : ℝ) (R : ℝ × ℝ → ℝ × ℝ) (s : ℝ × ℝ)
    (E : List (Tri ℝ)) :
    locate (fun p => affine a b c d e f (R p)) (affine a b c d e f s) E = locate R s E := by
  unfold locate
  refine List.filter_congr fun t _ => ?_
  exact contains_affine h e f (t.map R) s

theorem candidates_comp_affine {a b c d : ℝ} (h : a * d - b * c ≠ 0) (e f : ℝ) (R : ℝ × ℝ → ℝ × ℝ) (s : ℝ × ℝ)
    (E : List (Tri ℝ)) (k : ℕ) :
    candidates (fun p => affine a b c d e f (R p)) (affine a b c d e f s) E k = candidates R s E k := by
  induction k with
  | zero => exact locate_comp_affine h e f R s E
  | succ k ih => unfold candidates; rw [ih, locate_comp_affine h]

theorem RegularImage.nearId (h : RegularImage R v r) : ∃ a b c d : ℝ, a * d - b * c ≠ 0 ∧
    NearId (fun p => affine a b c d 0 0 (R p)) (1 / 8) v r := by
  obtain ⟨a, b, c, d, hd, h⟩ := h
  refine ⟨a, b, c, d, hd, fun p hp q hq => ?_⟩
  rw [mem_closedBall, dist_eq_norm] at hp hq
  rw [affine_linear_sub]
  exact h p q hp hq

theorem dist2_triangle (p q w : ℝ × ℝ) : dist2 p w ≤ dist2 p q + dist2 q w := by
  have e : ∀ p q : ℝ × ℝ, dist2 p q = ‖(⟨p.1 - q.1, p.2 - q.2⟩ : ℂ)‖ := by
    intro p q
    rw [Complex.norm_def, Complex.normSq_mk, dist2, sq, sq]
  rw [e, e, e, show (⟨p.1 - w.1, p.2 - w.2⟩ : ℂ) = ⟨p.1 - q.1, p.2 - q.2⟩ + ⟨q.1 - w.1, q.2 - w.2⟩ by
    apply Complex.ext <;> simp]
  exact norm_add_le _ _

theorem centroid_near {t : Tri ℝ} {v : ℝ × ℝ} {ρ : ℝ} (h0 : ‖t.p0 - v‖ ≤ ρ) (h1 : ‖t.p1 - v‖ ≤ ρ) (h2 : ‖t.p2 - v‖ ≤ ρ) :
    ‖centroid t - v‖ ≤ ρ := by
  have e : centroid t - v = (1 / 3 : ℝ) • (t.p0 - v) + (1 / 3 : ℝ) • (t.p1 - v) + (1 / 3 : ℝ) • (t.p2 - v) := by
    unfold centroid
    ext <;> simp <;> ring
  rw [e]
  refine (norm_add₃_le).trans ?_
  simp only [norm_smul]
  norm_num
  linarith

/-- In every round down to the tolerance with which triangles are told apart there is a candidate, all of
it near the regular image: within twice the spacing of that round. -/
theorem C59_candidates_partial (hf : 0 < fov) (hn : 2 ≤ n) (hreg : RegularImage R v r)
    (hr : 2 * (fov / ((n : ℝ) - 1)) ≤ r)
    (hx : |v.1 - x0| + fov / ((n : ℝ) - 1) / 2 ≤ fov / 2) (hy : |v.2 - y0| + fov / ((n : ℝ) - 1) / 2 ≤ fov / 2)
    (k : ℕ) (hk : ∀ j < k, 1 / 10 ^ 6 < fov / ((n : ℝ) - 1) / 2 ^ j) :
    ∃ t ∈ candidates R (R v) (initialTriangles x0 y0 fov n) k,
      ‖t.p0 - v‖ ≤ 2 * (fov / ((n : ℝ) - 1) / 2 ^ k) ∧ ‖t.p1 - v‖ ≤ 2 * (fov / ((n : ℝ) - 1) / 2 ^ k) ∧
      ‖t.p2 - v‖ ≤ 2 * (fov / ((n : ℝ) - 1) / 2 ^ k) := by
  obtain ⟨a, b, c, d, hd, hF⟩ := hreg.nearId
  obtain ⟨t, ht, x, hw, hxv⟩ := mesh_candidates hf hn hF hr rfl hx hy k hk
  rw [candidates_comp_affine hd] at ht
  have hn1 : (0 : ℝ) < (n : ℝ) - 1 := by
    have : (2 : ℝ) ≤ n := by exact_mod_cast hn
    linarith
  have hδ : 0 < fov / ((n : ℝ) - 1) / 2 ^ k := by positivity
  have hm := onMesh_candidates (fun t ht => onMesh_initial (x0 := x0) (y0 := y0) (fov := fov) (n := n) ht) R (R v) k t ht
  obtain ⟨d0, d1, d2⟩ := mesh_diam hδ hm hw.inTri
  have key : ∀ p, ‖p - x‖ ≤ fov / ((n : ℝ) - 1) / 2 ^ k → ‖p - v‖ ≤ 2 * (fov / ((n : ℝ) - 1) / 2 ^ k) := by
    intro p hp
    rw [show p - v = (p - x) + (x - v) by abel]
    exact (norm_add_le _ _).trans (by linarith)
  exact ⟨t, ht, key _ d0, key _ d1, key _ d2⟩

/-- A general lens.  `V` are images of the source `s`, each at least half a cell inside the field and
regular on the scale of two cells of the initial grid.  Suppose the depth reaches the resolution `eps`
and does not go below the spacing `1e-6` at which distinct triangles are taken for equal; and that the
root finder, given a start within two initial cells of an image, returns a point within `η` of it that
meets the source within `eps`.  Then the call returns a list, and each of these images is found up to
`eps + η`.  Missing from the full claim: images at which the map folds within two cells, and the
hypothesis on the root finder. -/
theorem C59_regular_partial (hf : 0 < fov) (hn : 2 ≤ n) (he : 0 < eps) {V : Set (ℝ × ℝ)} (hV : V.Nonempty)
    (himg : ∀ v ∈ V, R v = s) (hreg : ∀ v ∈ V, RegularImage R v (2 * (fov / ((n : ℝ) - 1))))
    (hx : ∀ v ∈ V, |v.1 - x0| + fov / ((n : ℝ) - 1) / 2 ≤ fov / 2)
    (hy : ∀ v ∈ V, |v.2 - y0| + fov / ((n : ℝ) - 1) / 2 ≤ fov / 2)
    (hdepth : (fov / ((n : ℝ) - 1)) ^ 2 / 2 / 4 ^ max_depth < eps ^ 2)
    (htol : ∀ j < max_depth, 1 / 10 ^ 6 < fov / ((n : ℝ) - 1) / 2 ^ j)
    (hrf : ∀ v ∈ V, ∀ l, ∀ p ∈ l, ‖p - v‖ ≤ 2 * (fov / ((n : ℝ) - 1)) →
      ∃ w ∈ rf l, dist2 w v ≤ η ∧ dist2 (R w) s < eps) :
    ∃ l, forwardRaytrace s R rf x0 y0 fov n eps max_depth = .ok l ∧ ∀ v ∈ V, ∃ p ∈ l, dist2 p v < eps + η := by
  have cand : ∀ v ∈ V, ∀ k ≤ max_depth, ∃ t ∈ candidates R s (initialTriangles x0 y0 fov n) k,
      ‖centroid t - v‖ ≤ 2 * (fov / ((n : ℝ) - 1)) := by
    intro v hv k hk
    obtain ⟨t, ht, h0, h1, h2⟩ := C59_candidates_partial hf hn (hreg v hv) le_rfl (hx v hv) (hy v hv) k
      fun j hj => htol j (by omega)
    rw [himg v hv] at ht
    refine ⟨t, ht, (centroid_near h0 h1 h2).trans ?_⟩
    have hn1 : (0 : ℝ) < (n : ℝ) - 1 := by
      have : (2 : ℝ) ≤ n := by exact_mod_cast hn
      linarith
    have : fov / ((n : ℝ) - 1) / 2 ^ k ≤ fov / ((n : ℝ) - 1) :=
      div_le_self (by positivity) (one_le_pow₀ (by norm_num))
    linarith
  obtain ⟨v0, hv0⟩ := hV
  have hout := frLoop_start (R := R) (rf := rf) (s := s) (eps := eps) (initialTriangles x0 y0 fov n) max_depth
  cases hl : forwardRaytrace s R rf x0 y0 fov n eps max_depth with
  | error e =>
    exfalso
    rcases C33_failures hl with ⟨-, k, hk, h0⟩ | ⟨-, h0⟩
    · obtain ⟨t, ht, -⟩ := cand v0 hv0 k hk
      rw [h0] at ht
      exact List.not_mem_nil ht
    · linarith
  | ok l =>
    refine ⟨l, rfl, fun v hv => ?_⟩
    unfold forwardRaytrace at hl
    split at hl
    · cases hl
    · rename_i M k hM
      simp only [Except.ok.injEq] at hl
      subst hl
      rw [hM] at hout
      obtain ⟨j, hj, -, hp⟩ := hout.points
      have hle := hout.le
      obtain ⟨t, ht, hc⟩ := cand v hv j (by omega)
      obtain ⟨w, hw, hwv, hws⟩ := hrf v hv _ _ (List.mem_map_of_mem (f := centroid) ht) hc
      have hwM : w ∈ M := by
        rcases hp with ⟨h1, -, -⟩ | h1
        · rw [h1]; exact hw
        · exact (h1 w).2 ⟨hw, hws⟩
      obtain ⟨q, hq, hd⟩ := (C32_points M he).2.2.2 w hwM
      refine ⟨q, hq, ?_⟩
      have := dist2_triangle q w v
      rw [show dist2 q w = dist2 w q by unfold dist2; congr 1; ring] at this
      linarith

/-! ### Differentiable lens maps -/

theorem norm_affine_le (a b c d : ℝ) (h : ℝ × ℝ) :
    ‖affine a b c d 0 0 h‖ ≤ (|a| + |b| + |c| + |d|) * ‖h‖ := by
  have h1 : |h.1| ≤ ‖h‖ := norm_fst_le h
  have h2 : |h.2| ≤ ‖h‖ := norm_snd_le h
  have h0 := norm_nonneg h
  have e : ∀ a x : ℝ, |x| ≤ ‖h‖ → |a * x| ≤ |a| * ‖h‖ := fun a x hx => by
    rw [abs_mul]; exact mul_le_mul_of_nonneg_left hx (abs_nonneg a)
  have ha := mul_nonneg (abs_nonneg a) h0
  have hb := mul_nonneg (abs_nonneg b) h0
  have hc := mul_nonneg (abs_nonneg c) h0
  have hd := mul_nonneg (abs_nonneg d) h0
  refine max_le ?_ ?_
  · simp only [affine, add_zero, Real.norm_eq_abs]
    refine (abs_add_le _ _).trans ?_
    nlinarith [e a _ h1, e b _ h2]
  · simp only [affine, add_zero, Real.norm_eq_abs]
    refine (abs_add_le _ _).trans ?_
    nlinarith [e c _ h1, e d _ h2]

/-- Where the lens map is continuously differentiable and the determinant of its Jacobian is not zero
(the magnification is finite), an image is regular on some scale. -/
theorem C59_smooth {M : M22 ℝ} (hR : ContDiffAt ℝ 1 R v)
    (hM : HasJac (fun x y => R (x, y)) M.a00 M.a01 M.a10 M.a11 v.1 v.2)
    (hdet : M.a00 * M.a11 - M.a01 * M.a10 ≠ 0) : ∃ r > 0, ∀ r' ≤ r, RegularImage R v r' := by
  have hst := hR.hasStrictFDerivAt (by norm_num)
  have hfd : HasFDerivAt R _ v := (hM.1.prodMk hM.2)
  rw [hfd.fderiv] at hst
  set D := M.a00 * M.a11 - M.a01 * M.a10 with hD
  set a := M.a11 / D
  set b := -M.a01 / D
  set c := -M.a10 / D
  set d := M.a00 / D
  set C := |a| + |b| + |c| + |d| with hC
  have hC0 : 0 ≤ C := by positivity
  have hev := hst.isLittleO.def (c := 1 / (8 * (C + 1))) (by positivity)
  rw [Metric.eventually_nhds_iff] at hev
  obtain ⟨ρ, hρ, hev⟩ := hev
  refine ⟨ρ / 2, by positivity, fun r' hr' => ⟨a, b, c, d, ?_, fun p q hp hq => ?_⟩⟩
  · have : a * d - b * c = 1 / D := by
      simp only [a, b, c, d]
      field_simp
      rw [hD]; ring
    rw [this]
    exact one_div_ne_zero hdet
  · have := hev (y := (p, q)) (by
      rw [Prod.dist_eq, dist_eq_norm, dist_eq_norm]
      exact max_lt (by simp only; linarith) (by simp only; linarith))
    simp only at this
    set L := ((ContinuousLinearMap.fst ℝ ℝ ℝ).smulRight M.a00 + (ContinuousLinearMap.snd ℝ ℝ ℝ).smulRight M.a01).prod
      ((ContinuousLinearMap.fst ℝ ℝ ℝ).smulRight M.a10 + (ContinuousLinearMap.snd ℝ ℝ ℝ).smulRight M.a11)
    have e : affine a b c d 0 0 (R p - R q) - (p - q) = affine a b c d 0 0 (R p - R q - L (p - q)) := by
      rw [← affine_linear_sub]
      congr 1
      simp only [affine, L, a, b, c, d]
      ext
      · simp
        field_simp
        rw [hD]; ring
      · simp
        field_simp
        rw [hD]; ring
    rw [e]
    refine (norm_affine_le a b c d _).trans ?_
    rw [← hC]
    have h8 : C * (1 / (8 * (C + 1))) ≤ 1 / 8 := by
      rw [mul_one_div, div_le_div_iff₀ (by positivity) (by norm_num)]
      linarith
    calc C * ‖R p - R q - L (p - q)‖ ≤ C * (1 / (8 * (C + 1)) * ‖p - q‖) := mul_le_mul_of_nonneg_left this hC0
      _ = C * (1 / (8 * (C + 1))) * ‖p - q‖ := by ring
      _ ≤ _ := mul_le_mul_of_nonneg_right h8 (norm_nonneg _)

/-- Finitely many images of finite magnification of a continuously differentiable lens map: below some
spacing, every grid that covers them finds them all. -/
theorem C59_fine_grid_partial {V : Set (ℝ × ℝ)} (hfin : V.Finite) (hV : V.Nonempty) (himg : ∀ v ∈ V, R v = s)
    (hR : ∀ v ∈ V, ContDiffAt ℝ 1 R v) (M : ℝ × ℝ → M22 ℝ)
    (hM : ∀ v ∈ V, HasJac (fun x y => R (x, y)) (M v).a00 (M v).a01 (M v).a10 (M v).a11 v.1 v.2)
    (hdet : ∀ v ∈ V, (M v).a00 * (M v).a11 - (M v).a01 * (M v).a10 ≠ 0) :
    ∃ δ > 0, ∀ (rf : List (ℝ × ℝ) → List (ℝ × ℝ)) (x0 y0 fov eps η : ℝ) (n max_depth : ℕ), 0 < fov → 2 ≤ n → 0 < eps →
      fov / ((n : ℝ) - 1) ≤ δ →
      (∀ v ∈ V, |v.1 - x0| + fov / ((n : ℝ) - 1) / 2 ≤ fov / 2 ∧ |v.2 - y0| + fov / ((n : ℝ) - 1) / 2 ≤ fov / 2) →
      (fov / ((n : ℝ) - 1)) ^ 2 / 2 / 4 ^ max_depth < eps ^ 2 →
      (∀ j < max_depth, 1 / 10 ^ 6 < fov / ((n : ℝ) - 1) / 2 ^ j) →
      (∀ v ∈ V, ∀ l, ∀ p ∈ l, ‖p - v‖ ≤ 2 * (fov / ((n : ℝ) - 1)) →
        ∃ w ∈ rf l, dist2 w v ≤ η ∧ dist2 (R w) s < eps) →
      ∃ l, forwardRaytrace s R rf x0 y0 fov n eps max_depth = .ok l ∧ ∀ v ∈ V, ∃ p ∈ l, dist2 p v < eps + η := by
  have hr : ∃ r > 0, ∀ v ∈ V, ∀ r' ≤ r, RegularImage R v r' := by
    clear hV
    induction V, hfin using Set.Finite.induction_on with
    | empty => exact ⟨1, one_pos, by simp⟩
    | @insert v V _ _ ih =>
      obtain ⟨r1, h1, h1'⟩ := ih (fun v h => himg v (.inr h)) (fun v h => hR v (.inr h)) (fun v h => hM v (.inr h))
        (fun v h => hdet v (.inr h))
      obtain ⟨r2, h2, h2'⟩ := C59_smooth (hR v (.inl rfl)) (hM v (.inl rfl)) (hdet v (.inl rfl))
      refine ⟨min r1 r2, lt_min h1 h2, ?_⟩
      rintro w (rfl | hw) r' hr'
      · exact h2' r' (hr'.trans (min_le_right _ _))
      · exact h1' w hw r' (hr'.trans (min_le_left _ _))
  obtain ⟨r, h0, hr⟩ := hr
  refine ⟨r / 2, by positivity, fun rf x0 y0 fov eps η n md hf hn he hδ hin hdep htol hrf => ?_⟩
  exact C59_regular_partial hf hn he hV himg (fun v hv => hr v hv _ (by linarith)) (fun v hv => (hin v hv).1)
    (fun v hv => (hin v hv).2) hdep htol hrf

/-! ### A point mass -/

theorem point_contDiffAt {x0 y0 Rein : ℝ} {v : ℝ × ℝ} (h : v ≠ (x0, y0)) :
    ContDiffAt ℝ 1 (fun p : ℝ × ℝ => rayOf (pointDeflection x0 y0 Rein 0) p.1 p.2) v := by
  have hr := radius_pos (sub_ne_zero_pair (bx := v.1) (bys := v.2) h)
  have hq := Real.sqrt_pos.1 hr
  simp only [rayOf, pointDeflection, translateRotate, add_zero]
  have h1 : ContDiffAt ℝ 1 (fun p : ℝ × ℝ => √((p.1 - x0) ^ 2 + (p.2 - y0) ^ 2)) v :=
    ContDiffAt.sqrt (by fun_prop) hq.ne'
  have h2 : (√((v.1 - x0) ^ 2 + (v.2 - y0) ^ 2)) ^ 2 ≠ 0 := by positivity
  refine ContDiffAt.prodMk ?_ ?_
  · exact contDiffAt_fst.sub (ContDiffAt.div (by fun_prop) (h1.pow 2) h2)
  · exact contDiffAt_snd.sub (ContDiffAt.div (by fun_prop) (h1.pow 2) h2)

/-- A point mass with the source off its centre: below some spacing, every grid that covers the two images
finds both, whatever the lens map is taken to be at the centre of the lens itself (where the code has no
value). -/
theorem C59_point_partial (xl yl Rein bx bys : ℝ) (hR : 0 < Rein) (hb : (bx, bys) ≠ (xl, yl))
    (R : ℝ × ℝ → ℝ × ℝ) (hray : ∀ x y b, raytraceOpt (pointDeflectionOpt xl yl Rein 0) x y = some b → R (x, y) = b) :
    ∃ δ > 0, ∀ (rf : List (ℝ × ℝ) → List (ℝ × ℝ)) (x0 y0 fov eps η : ℝ) (n max_depth : ℕ), 0 < fov → 2 ≤ n → 0 < eps →
      fov / ((n : ℝ) - 1) ≤ δ →
      (∀ x y, raytraceOpt (pointDeflectionOpt xl yl Rein 0) x y = some (bx, bys) →
        |x - x0| + fov / ((n : ℝ) - 1) / 2 ≤ fov / 2 ∧ |y - y0| + fov / ((n : ℝ) - 1) / 2 ≤ fov / 2) →
      (fov / ((n : ℝ) - 1)) ^ 2 / 2 / 4 ^ max_depth < eps ^ 2 →
      (∀ j < max_depth, 1 / 10 ^ 6 < fov / ((n : ℝ) - 1) / 2 ^ j) →
      (∀ x y, raytraceOpt (pointDeflectionOpt xl yl Rein 0) x y = some (bx, bys) →
        ∀ l, ∀ p ∈ l, ‖p - (x, y)‖ ≤ 2 * (fov / ((n : ℝ) - 1)) →
          ∃ w ∈ rf l, dist2 w (x, y) ≤ η ∧ dist2 (R w) (bx, bys) < eps) →
      ∃ l, forwardRaytrace (bx, bys) R rf x0 y0 fov n eps max_depth = .ok l ∧
        ∀ x y, raytraceOpt (pointDeflectionOpt xl yl Rein 0) x y = some (bx, bys) →
          ∃ p ∈ l, dist2 p (x, y) < eps + η := by
  set V : Set (ℝ × ℝ) := {v | raytraceOpt (pointDeflectionOpt xl yl Rein 0) v.1 v.2 = some (bx, bys)} with hVd
  set β := √((bx - xl) ^ 2 + (bys - yl) ^ 2) with hβd
  set w := √(β ^ 2 + 4 * Rein ^ 2) with hwd
  have hβ : 0 < β := radius_pos (sub_ne_zero_pair hb)
  have hw2 : w ^ 2 = β ^ 2 + 4 * Rein ^ 2 := Real.sq_sqrt (by positivity)
  have hw0 : 0 < w := Real.sqrt_pos.2 (by positivity)
  have hwβ : β < w := by nlinarith [sq_nonneg Rein, sq_pos_of_pos hR]
  have hsub : V ⊆ {(xl + (1 + w / β) / 2 * (bx - xl), yl + (1 + w / β) / 2 * (bys - yl)),
      (xl + (1 - w / β) / 2 * (bx - xl), yl + (1 - w / β) / 2 * (bys - yl))} := by
    intro v hv
    exact (C78_point xl yl Rein bx bys v.1 v.2 hR hb).1 hv
  have hfin : V.Finite := Set.Finite.subset (by simp) hsub
  have hne : V.Nonempty := ⟨(_, _), (C78_point xl yl Rein bx bys _ _ hR hb).2 (Or.inl rfl)⟩
  -- the radius of an image
  have hrad : ∀ v ∈ V, v ≠ (xl, yl) ∧ √((v.1 - xl) ^ 2 + (v.2 - yl) ^ 2) ≠ Rein := by
    intro v hv
    have key : ∀ k : ℝ, v = (xl + k * (bx - xl), yl + k * (bys - yl)) →
        √((v.1 - xl) ^ 2 + (v.2 - yl) ^ 2) = |k| * β := by
      rintro k rfl
      rw [show (xl + k * (bx - xl) - xl) ^ 2 + (yl + k * (bys - yl) - yl) ^ 2 =
        k ^ 2 * ((bx - xl) ^ 2 + (bys - yl) ^ 2) by ring, Real.sqrt_mul (sq_nonneg k), Real.sqrt_sq_eq_abs]
    have hval : √((v.1 - xl) ^ 2 + (v.2 - yl) ^ 2) = (w + β) / 2 ∨ √((v.1 - xl) ^ 2 + (v.2 - yl) ^ 2) = (w - β) / 2 := by
      rcases hsub hv with e | e
      · left
        rw [key _ e, abs_of_pos (by positivity)]
        field_simp
        ring
      · right
        have : (1 - w / β) / 2 < 0 := by
          have : 1 < w / β := (one_lt_div hβ).2 hwβ
          linarith
        rw [key _ e, abs_of_neg this]
        field_simp
        ring
    refine ⟨?_, ?_⟩
    · rintro rfl
      simp only [sub_self, ne_eq, OfNat.ofNat_ne_zero, not_false_eq_true, zero_pow, add_zero, Real.sqrt_zero] at hval
      rcases hval with h | h <;> linarith
    · intro h
      rw [h] at hval
      rcases hval with h | h
      · nlinarith
      · nlinarith
  have hRe : ∀ v : ℝ × ℝ, v ≠ (xl, yl) → R v = rayOf (pointDeflection xl yl Rein 0) v.1 v.2 :=
    fun v hv => hray v.1 v.2 _ (point_ray_ne (x := v.1) (y := v.2) hv)
  have hev : ∀ v : ℝ × ℝ, v ≠ (xl, yl) →
      R =ᶠ[nhds v] fun p : ℝ × ℝ => rayOf (pointDeflection xl yl Rein 0) p.1 p.2 := fun v hv =>
    (isOpen_ne.eventually_mem hv).mono fun p hp => hRe p hp
  have hjac : ∀ v : ℝ × ℝ, ∃ M : M22 ℝ, v ∈ V →
      HasJac (fun x y => R (x, y)) M.a00 M.a01 M.a10 M.a11 v.1 v.2 ∧ M.a00 * M.a11 - M.a01 * M.a10 ≠ 0 := by
    intro v
    by_cases hv : v ∈ V
    swap
    · exact ⟨⟨0, 0, 0, 0⟩, fun h => absurd h hv⟩
    obtain ⟨hne, hring⟩ := hrad v hv
    obtain ⟨M, hM, hmag⟩ := point_jac (Rein := Rein) (x := v.1) (y := v.2) hne
    refine ⟨M, fun _ => ⟨⟨?_, ?_⟩, ?_⟩⟩
    · exact HasFDerivAt.congr_of_eventuallyEq hM.1 ((hev v hne).mono fun p hp => by simp only [hp])
    · exact HasFDerivAt.congr_of_eventuallyEq hM.2 ((hev v hne).mono fun p hp => by simp only [hp])
    · intro h0
      have hr0 := radius_pos (sub_ne_zero_pair (bx := v.1) (bys := v.2) hne)
      set ρ := √((v.1 - xl) ^ 2 + (v.2 - yl) ^ 2)
      have : pixelMagnification M = 0 := by
        simp [pixelMagnification, h0]
      rw [this, div_zero, eq_comm, abs_eq_zero, sub_eq_zero] at hmag
      have h4 : Rein / ρ = 1 := (pow_eq_one_iff_of_nonneg (by positivity) (by norm_num)).1 hmag.symm
      exact hring ((div_eq_one_iff_eq hr0.ne').1 h4).symm
  choose M hM using hjac
  obtain ⟨δ, hδ, H⟩ := C59_fine_grid_partial (R := R) hfin hne (s := (bx, bys)) (fun v hv => hray v.1 v.2 _ hv)
    (fun v hv => (point_contDiffAt (hrad v hv).1).congr_of_eventuallyEq (hev v (hrad v hv).1))
    M (fun v hv => (hM v hv).1) (fun v hv => (hM v hv).2)
  refine ⟨δ, hδ, fun rf x0 y0 fov eps η n md hf hn he hsp hin hdep htol hrf => ?_⟩
  obtain ⟨l, hl, hp⟩ := H rf x0 y0 fov eps η n md hf hn he hsp (fun v hv => hin v.1 v.2 hv) hdep htol
    (fun v hv => hrf v.1 v.2 hv)
  exact ⟨l, hl, fun x y hxy => hp (x, y) hxy⟩

/-! ### Small units -/

/-- A lens map with a length `h`: `(x, y) ↦ (x, y + (h² - x²)/(64 h))`.  In units of `h` it is the same map
for every `h`. -/
noncomputable def bentMap (h : ℝ) (p : ℝ × ℝ) : ℝ × ℝ := (p.1, p.2 + (h ^ 2 - p.1 ^ 2) / (64 * h))

theorem bentMap_units {h : ℝ} (h0 : h ≠ 0) (p : ℝ × ℝ) : bentMap h (h • p) = h • bentMap 1 p := by
  unfold bentMap
  ext
  · simp
  · simp; field_simp

theorem dedupLoop_single {A : Type*} {close : A → A → Bool} {x : A} {l : List A} (h : ∀ y ∈ l, close y x = true) :
    dedupLoop close [x] l = [x] := by
  induction l with
  | nil => rfl
  | cons y l ih =>
    unfold dedupLoop
    rw [if_pos (by simp [h y (by simp)])]
    exact ih fun z hz => h z (by simp [hz])

theorem bent_first {h : ℝ} (h0 : 0 < h) : ∀ t ∈ candidates (bentMap h) (0, h / 128) (initialTriangles 0 0 (6 * h) 4) 0,
    t = ⟨(-h, -h), (-h, h), (h, h)⟩ := by
  intro t ht
  obtain ⟨hm, hc⟩ := mem_locate.1 ht
  obtain ⟨-, w0, w1, w2, g0, g1, g2, hs, he⟩ := (contains_spec _ _).1 hc
  obtain ⟨i, j, hi, hj, hform⟩ := mem_initial.1 hm
  have hgn : ∀ k l : ℕ, gridNode (0 : ℝ) 0 (6 * h) 4 k l = (-3 * h + 2 * h * k, -3 * h + 2 * h * l) := by
    intro k l
    unfold gridNode
    ext <;> norm_num <;> ring
  simp only [hgn] at hform
  have e1 := congrArg Prod.fst he
  have e2 := congrArg Prod.snd he
  have m0 := mul_nonneg g0 h0.le
  have m1 := mul_nonneg g1 h0.le
  have m2 := mul_nonneg g2 h0.le
  have hsh : w0 * h + w1 * h + w2 * h = h := by rw [← add_mul, ← add_mul, hs, one_mul]
  have hi' : i = 0 ∨ i = 1 ∨ i = 2 := by omega
  have hj' : j = 0 ∨ j = 1 ∨ j = 2 := by omega
  have hz : (h ^ 2 - (-h) ^ 2) / (64 * h) = 0 := by rw [neg_sq, sub_self, zero_div]
  have hz' : (h ^ 2 - h ^ 2) / (64 * h) = 0 := by rw [sub_self, zero_div]
  have a0 : -3 * h + 2 * h * ((0 : ℕ) : ℝ) = -3 * h := by simp
  have a1 : -3 * h + 2 * h * ((1 : ℕ) : ℝ) = -h := by push_cast; ring
  have a2 : -3 * h + 2 * h * ((2 : ℕ) : ℝ) = h := by push_cast; ring
  have a3 : -3 * h + 2 * h * ((3 : ℕ) : ℝ) = 3 * h := by push_cast; ring
  rcases hform with rfl | rfl <;> rcases hi' with rfl | rfl | rfl <;>
    simp only [zero_add, show 1 + 1 = 2 from rfl, show 2 + 1 = 3 from rfl, a0, a1, a2, a3, Tri.map, bentMap, hz, hz',
      add_zero, Prod.fst_add, Prod.snd_add, Prod.smul_fst, Prod.smul_snd, smul_eq_mul] at e1 e2 <;>
    first
    | (exfalso; linarith)
    | (rcases hj' with rfl | rfl | rfl <;>
        simp only [zero_add, show 1 + 1 = 2 from rfl, show 2 + 1 = 3 from rfl, a0, a1, a2, a3] at e1 e2 ⊢ <;>
        first
        | (exfalso; linarith)
        | trivial)

theorem bent_second {h : ℝ} (h0 : 0 < h) : ∀ t ∈ triangleUpsample (⟨(-h, -h), (-h, h), (h, h)⟩ : Tri ℝ),
    triangleContains (t.map (bentMap h)) (0, h / 128) = false := by
  intro t ht
  rw [Bool.eq_false_iff]
  intro hc
  obtain ⟨-, w0, w1, w2, g0, g1, g2, hs, he⟩ := (contains_spec _ _).1 hc
  have e1 := congrArg Prod.fst he
  have e2 := congrArg Prod.snd he
  have m0 := mul_nonneg g0 h0.le
  have m1 := mul_nonneg g1 h0.le
  have m2 := mul_nonneg g2 h0.le
  have hsh : w0 * h + w1 * h + w2 * h = h := by rw [← add_mul, ← add_mul, hs, one_mul]
  have hq : h ^ 2 / (64 * h) = h / 64 := by field_simp
  have hz : (h ^ 2 - (-h) ^ 2) / (64 * h) = 0 := by rw [neg_sq, sub_self, zero_div]
  have hz' : (h ^ 2 - h ^ 2) / (64 * h) = 0 := by rw [sub_self, zero_div]
  have hz0 : (h ^ 2 - 0 ^ 2) / (64 * h) = h / 64 := by rw [← hq]; simp
  have b1 : (-h + -h) / 2 = -h := by ring
  have b2 : (h + -h) / 2 = 0 := by ring
  have b3 : (h + h) / 2 = h := by ring
  simp only [triangleUpsample, midpt, List.mem_cons, List.not_mem_nil, or_false, b1, b2, b3] at ht
  rcases ht with rfl | rfl | rfl | rfl <;>
    simp only [Tri.map, bentMap, hz, hz', hz0, add_zero, zero_add, Prod.fst_add, Prod.snd_add, Prod.smul_fst, Prod.smul_snd,
      smul_eq_mul, mul_zero] at e1 e2 <;> linarith

theorem bent_refine {h : ℝ} (h0 : 0 < h) (h1 : h ≤ 1 / 10 ^ 7) {l : List (Tri ℝ)}
    (hl : ∀ t ∈ l, t = ⟨(-h, -h), (-h, h), (h, h)⟩) : locate (bentMap h) (0, h / 128) (refineTriangles l) = [] := by
  unfold locate
  rw [List.filter_eq_nil_iff]
  intro t ht
  rw [Bool.not_eq_true]
  obtain ⟨q, hq, hc⟩ := List.mem_flatMap.1 ht
  suffices q = ⟨(-h, -h), (-h, h), (h, h)⟩ by subst this; exact bent_second h0 t hc
  cases l with
  | nil => simp [removeTriangleDuplicates, dedupLoop] at hq
  | cons p l =>
    obtain rfl := hl p (by simp)
    have hcl : ∀ y ∈ (⟨(-h, -h), (-h, h), (h, h)⟩ :: l : List (Tri ℝ)).flatMap triangleNeighbors,
        triangleEquals y (⟨(-h, -h), (-h, h), (h, h)⟩ : Tri ℝ) = true := by
      intro y hy
      obtain ⟨p, hp, hy⟩ := List.mem_flatMap.1 hy
      rw [hl p hp] at hy
      have c0 : |(0 : ℝ)| < 1 / 1000000 := by norm_num
      have c2 : |2 * h| < 1 / 1000000 := by rw [abs_of_pos (by positivity)]; norm_num at h1 ⊢; linarith
      have c4 : |4 * h| < 1 / 1000000 := by rw [abs_of_pos (by positivity)]; norm_num at h1 ⊢; linarith
      have d2 : |-(2 * h)| < 1 / 1000000 := by rwa [abs_neg]
      have d4 : |-(4 * h)| < 1 / 1000000 := by rwa [abs_neg]
      have clo : ∀ x : ℝ, x = 0 ∨ x = 2 * h ∨ x = 4 * h ∨ x = -(2 * h) ∨ x = -(4 * h) → |x| < 1 / 1000000 := by
        rintro x (rfl | rfl | rfl | rfl | rfl) <;> assumption
      simp only [triangleNeighbors, List.mem_cons, List.not_mem_nil, or_false] at hy
      simp only [triangleEquals, Bool.and_eq_true, decide_eq_true_eq]
      rcases hy with rfl | rfl | rfl | rfl | rfl | rfl | rfl | rfl | rfl | rfl | rfl | rfl | rfl <;>
        refine ⟨⟨⟨clo _ ?_, clo _ ?_⟩, clo _ ?_, clo _ ?_⟩, clo _ ?_, clo _ ?_⟩ <;>
        simp only [Tri.shift, Prod.fst_add, Prod.snd_add, Prod.fst_sub, Prod.snd_sub, Prod.fst_neg, Prod.snd_neg] <;>
        first
        | (left; ring1)
        | (right; left; ring1)
        | (right; right; left; ring1)
        | (right; right; right; left; ring1)
        | (right; right; right; right; ring1)
    unfold removeTriangleDuplicates at hq
    rw [List.flatMap_cons, show triangleNeighbors (⟨(-h, -h), (-h, h), (h, h)⟩ : Tri ℝ) =
      ⟨(-h, -h), (-h, h), (h, h)⟩ :: (triangleNeighbors (⟨(-h, -h), (-h, h), (h, h)⟩ : Tri ℝ)).tail from rfl,
      List.cons_append] at hq
    rw [List.flatMap_cons, show triangleNeighbors (⟨(-h, -h), (-h, h), (h, h)⟩ : Tri ℝ) =
      ⟨(-h, -h), (-h, h), (h, h)⟩ :: (triangleNeighbors (⟨(-h, -h), (-h, h), (h, h)⟩ : Tri ℝ)).tail from rfl,
      List.cons_append] at hcl
    unfold dedupLoop at hq
    rw [if_neg (by simp), List.nil_append, dedupLoop_single fun y hy => hcl y (List.mem_cons_of_mem _ hy),
      List.mem_singleton] at hq
    exact hq

theorem bent_regular {h : ℝ} (h0 : 0 < h) {y : ℝ} (r : ℝ) (hr : r ≤ 4 * h) : RegularImage (bentMap h) (0, y) r := by
  refine ⟨1, 0, 0, 1, by norm_num, fun p q hp hq => ?_⟩
  have h1 : |p.1| ≤ 4 * h := by
    have := norm_fst_le (p - (0, y)); simp only [Prod.fst_sub, sub_zero, Real.norm_eq_abs] at this; linarith
  have h2 : |q.1| ≤ 4 * h := by
    have := norm_fst_le (q - (0, y)); simp only [Prod.fst_sub, sub_zero, Real.norm_eq_abs] at this; linarith
  have h3 : |p.1 - q.1| ≤ ‖p - q‖ := norm_fst_le (p - q)
  refine max_le ?_ ?_
  · simp [affine, bentMap]
  · simp only [affine, bentMap, Prod.fst_sub, Prod.snd_sub, Real.norm_eq_abs]
    rw [show 0 * (p.1 - q.1) + 1 * (p.2 + (h ^ 2 - p.1 ^ 2) / (64 * h) - (q.2 + (h ^ 2 - q.1 ^ 2) / (64 * h))) + 0 -
      (p.2 - q.2) = -((p.1 + q.1) / (64 * h) * (p.1 - q.1)) by ring, abs_neg, abs_mul]
    refine mul_le_mul ?_ h3 (abs_nonneg _) (by norm_num)
    rw [abs_div, abs_of_pos (show 0 < 64 * h by positivity), div_le_div_iff₀ (by positivity) (by norm_num)]
    have := abs_add_le p.1 q.1
    linarith

/-- The search depends on the unit of length.  Triangles are told apart by an absolute `1e-6`; when the
cells are smaller than that (angles in radians, say), the neighbours of a candidate are all taken for the
candidate itself and discarded.  Here the one candidate of the first round has no child that contains
the source, and the search ends with `IndexError`, although there is a regular image. -/
theorem C59_fails_units {h : ℝ} (h0 : 0 < h) (h1 : h ≤ 1 / 10 ^ 7) (rf : List (ℝ × ℝ) → List (ℝ × ℝ)) {md : ℕ}
    (hmd : 1 ≤ md) :
    bentMap h (0, -(h / 128)) = (0, h / 128) ∧ RegularImage (bentMap h) (0, -(h / 128)) (4 * h) ∧
      forwardRaytrace (0, h / 128) (bentMap h) rf 0 0 (6 * h) 4 h md = .error .indexError := by
  refine ⟨?_, bent_regular h0 _ le_rfl, ?_⟩
  · unfold bentMap
    ext
    · rfl
    · simp only
      field_simp
      ring
  · unfold forwardRaytrace
    have hfirst := bent_first h0
    cases hC : candidates (bentMap h) (0, h / 128) (initialTriangles 0 0 (6 * h) 4) 0 with
    | nil => rw [frLoop_nil (by rw [if_neg (lt_irrefl 0)]; exact hC)]
    | cons e E =>
      rw [hC] at hfirst
      have he : triangleArea e = 2 * h ^ 2 := by
        rw [C33_area (bentMap h) (0, h / 128) 0 0 (6 * h) 4 0 e (by rw [hC]; simp)]
        norm_num
        ring
      rw [frLoop_large (by rw [if_neg (lt_irrefl 0)]; exact hC) (by rw [he]; nlinarith), if_neg (by omega),
        frLoop_nil (by rw [if_pos (by norm_num)]; exact bent_refine h0 h1 hfirst)]

/-- The same lens map, field, grid and resolution in units in which the cells are larger: the image is
found. -/
theorem C59_units_partial {h : ℝ} (h1 : 1 / 10 ^ 6 < h) :
    ∃ l, forwardRaytrace (0, h / 128) (bentMap h) (fun l => l.map fun _ => (0, -(h / 128))) 0 0 (6 * h) 4 h 2 = .ok l ∧
      ∃ p ∈ l, dist2 p (0, -(h / 128)) < h := by
  have h0 : 0 < h := lt_trans (by norm_num) h1
  have hsp : 6 * h / (((4 : ℕ) : ℝ) - 1) = 2 * h := by push_cast; ring
  have hv : bentMap h (0, -(h / 128)) = (0, h / 128) := by
    unfold bentMap
    ext
    · rfl
    · simp only
      field_simp
      ring
  obtain ⟨l, hl, hp⟩ := C59_regular_partial (R := bentMap h) (rf := fun l => l.map fun _ => (0, -(h / 128)))
    (s := (0, h / 128)) (x0 := 0) (y0 := 0) (fov := 6 * h) (n := 4) (eps := h) (η := 0) (max_depth := 2)
    (V := {(0, -(h / 128))}) (by positivity) (by norm_num) h0 (Set.singleton_nonempty _) (by rintro v rfl; exact hv)
    (by rintro v rfl; rw [hsp]; exact bent_regular h0 _ (by linarith))
    (by rintro v rfl; rw [hsp]; simp only [sub_self, abs_zero]; linarith)
    (by rintro v rfl; rw [hsp]; simp only [sub_zero, abs_neg, abs_of_pos (show 0 < h / 128 by positivity)]; linarith)
    (by rw [hsp]; nlinarith [sq_pos_of_pos h0])
    (by intro j hj; rw [hsp]; interval_cases j <;> norm_num at h1 ⊢ <;> linarith)
    (by
      rintro v rfl l p hp -
      refine ⟨(0, -(h / 128)), List.mem_map.2 ⟨p, hp, rfl⟩, ?_, ?_⟩
      · simp [dist2]
      · rw [hv]; simpa [dist2] using h0)
  exact ⟨l, hl, by simpa using hp⟩

/-! ### Examples -/

-- a lens map that is not affine
example : ∃ l, forwardRaytrace (0, 0) (fun p => (p.1 + p.1 ^ 2 / 20, p.2)) (fun _ => [(0, 0)]) 0 0 2 5 (1 / 10) 3 = .ok l ∧
    ∃ p ∈ l, dist2 p (0, 0) < 1 / 10 := by
  have hreg : ∀ v ∈ ({(0, 0)} : Set (ℝ × ℝ)),
      RegularImage (fun p => (p.1 + p.1 ^ 2 / 20, p.2)) v (2 * (2 / (((5 : ℕ) : ℝ) - 1))) := by
    rintro v rfl
    refine ⟨1, 0, 0, 1, by norm_num, fun p q hp hq => ?_⟩
    have h1 : |p.1| ≤ 1 := by
      have := norm_fst_le (p - (0, 0)); norm_num at this hp; linarith
    have h2 : |q.1| ≤ 1 := by
      have := norm_fst_le (q - (0, 0)); norm_num at this hq; linarith
    have h3 : |p.1 - q.1| ≤ ‖p - q‖ := norm_fst_le (p - q)
    refine max_le ?_ ?_
    · simp only [affine, Prod.fst_sub, Prod.snd_sub, Real.norm_eq_abs]
      rw [show 1 * (p.1 + p.1 ^ 2 / 20 - (q.1 + q.1 ^ 2 / 20)) + 0 * (p.2 - q.2) + 0 - (p.1 - q.1) =
        (p.1 + q.1) / 20 * (p.1 - q.1) by ring, abs_mul]
      refine mul_le_mul ?_ h3 (abs_nonneg _) (by norm_num)
      rw [abs_div]
      have := abs_add_le p.1 q.1
      norm_num
      linarith
    · simp [affine]
  obtain ⟨l, hl, h⟩ := C59_regular_partial (rf := fun _ => [(0, 0)]) (s := (0, 0)) (x0 := 0) (y0 := 0) (eps := 1 / 10)
    (n := 5) (η := 0) (max_depth := 3) two_pos (by norm_num) (by norm_num) (Set.singleton_nonempty _) (by simp) hreg (by norm_num) (by norm_num)
    (by norm_num) (by intro j hj; interval_cases j <;> norm_num)
    (by rintro v rfl l p - -; refine ⟨(0, 0), by simp, ?_, ?_⟩ <;> norm_num [dist2])
  exact ⟨l, hl, by simpa using h⟩

-- a point mass with the source at 3/2 Einstein radii: images at 2 and at -1/2
example (R : ℝ × ℝ → ℝ × ℝ) (hray : ∀ x y b, raytraceOpt (pointDeflectionOpt 0 0 1 0) x y = some b → R (x, y) = b) :
    ∃ δ > 0, ∀ n : ℕ, 4 ≤ n → 6 / ((n : ℝ) - 1) ≤ δ →
      ∃ l, forwardRaytrace (3 / 2, 0) R (fun _ => [(2, 0), (-1 / 2, 0)]) 0 0 6 n (6 / ((n : ℝ) - 1)) 0 = .ok l ∧
        (∃ p ∈ l, dist2 p (2, 0) < 6 / ((n : ℝ) - 1)) ∧ ∃ p ∈ l, dist2 p (-1 / 2, 0) < 6 / ((n : ℝ) - 1) := by
  have himg : ∀ x y : ℝ, raytraceOpt (pointDeflectionOpt 0 0 1 0) x y = some (3 / 2, 0) ↔
      (x, y) = (2, 0) ∨ (x, y) = (-1 / 2, 0) := by
    intro x y
    have := C78_point 0 0 1 (3 / 2) 0 x y one_pos (by simp)
    simp only [sub_zero] at this
    rw [show √((3 / 2 : ℝ) ^ 2 + 0 ^ 2) = 3 / 2 by rw [show (3 / 2 : ℝ) ^ 2 + 0 ^ 2 = (3 / 2) ^ 2 by norm_num]; exact Real.sqrt_sq (by norm_num),
      show √((3 / 2 : ℝ) ^ 2 + 4 * 1 ^ 2) = 5 / 2 by rw [show (3 / 2 : ℝ) ^ 2 + 4 * 1 ^ 2 = (5 / 2) ^ 2 by norm_num]; exact Real.sqrt_sq (by norm_num)] at this
    rw [this]
    norm_num
  obtain ⟨δ, hδ, H⟩ := C59_point_partial 0 0 1 (3 / 2) 0 one_pos (by simp) R hray
  refine ⟨δ, hδ, fun n hn hsp => ?_⟩
  have hn' : (4 : ℝ) ≤ n := by exact_mod_cast hn
  have hpos : 0 < 6 / ((n : ℝ) - 1) := by
    have : 0 < (n : ℝ) - 1 := by linarith
    positivity
  have hle : 6 / ((n : ℝ) - 1) ≤ 2 := by
    rw [div_le_iff₀ (by linarith)]; linarith
  have hR : ∀ x y : ℝ, ((x, y) = (2, 0) ∨ (x, y) = (-1 / 2, 0)) → R (x, y) = (3 / 2, 0) :=
    fun x y h => hray x y _ ((himg x y).2 h)
  have hin : ∀ x y : ℝ, raytraceOpt (pointDeflectionOpt 0 0 1 0) x y = some (3 / 2, 0) →
      |x - 0| + 6 / ((n : ℝ) - 1) / 2 ≤ 6 / 2 ∧ |y - 0| + 6 / ((n : ℝ) - 1) / 2 ≤ 6 / 2 := by
    intro x y h
    rcases (himg x y).1 h with h | h <;> obtain ⟨rfl, rfl⟩ := Prod.mk.inj h
    · rw [sub_zero, sub_zero, abs_zero, abs_of_pos two_pos]; constructor <;> linarith
    · rw [sub_zero, sub_zero, abs_zero, abs_of_neg (by norm_num)]; constructor <;> linarith
  have hrf : ∀ x y : ℝ, raytraceOpt (pointDeflectionOpt 0 0 1 0) x y = some (3 / 2, 0) →
      ∀ l : List (ℝ × ℝ), ∀ p ∈ l, ‖p - (x, y)‖ ≤ 2 * (6 / ((n : ℝ) - 1)) →
        ∃ w ∈ (fun _ : List (ℝ × ℝ) => [((2 : ℝ), (0 : ℝ)), (-1 / 2, 0)]) l,
          dist2 w (x, y) ≤ 0 ∧ dist2 (R w) (3 / 2, 0) < 6 / ((n : ℝ) - 1) := by
    intro x y h l p _ _
    refine ⟨(x, y), ?_, ?_, ?_⟩
    · rcases (himg x y).1 h with h | h <;> rw [h] <;> simp
    · simp [dist2]
    · rw [hR x y ((himg x y).1 h)]
      simpa [dist2] using hpos
  obtain ⟨l, hl, hp⟩ := H _ 0 0 6 (6 / ((n : ℝ) - 1)) 0 n 0 (by norm_num) (by omega) hpos hsp hin
    (by rw [pow_zero, div_one]; have := sq_pos_of_pos hpos; linarith) (by simp) hrf
  rw [add_zero] at hp
  exact ⟨l, hl, hp 2 0 ((himg _ _).2 (Or.inl rfl)), hp (-1 / 2) 0 ((himg _ _).2 (Or.inr rfl))⟩

-- a field of 6e-7 and one of 6
example (rf : List (ℝ × ℝ) → List (ℝ × ℝ)) :
    forwardRaytrace (0, 1 / 10 ^ 7 / 128) (bentMap (1 / 10 ^ 7)) rf 0 0 (6 * (1 / 10 ^ 7)) 4 (1 / 10 ^ 7) 25 =
      .error .indexError ∧
    ∃ l, forwardRaytrace (0, 1 / 128) (bentMap 1) (fun l => l.map fun _ => (0, -(1 / 128))) 0 0 (6 * 1) 4 1 2 = .ok l ∧
      ∃ p ∈ l, dist2 p (0, -(1 / 128)) < 1 :=
  ⟨(C59_fails_units (by norm_num) le_rfl rf (by norm_num)).2.2, C59_units_partial (by norm_num)⟩

end Caustics

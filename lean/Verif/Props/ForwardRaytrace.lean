import Verif.Lemmas.ForwardRaytrace
import Verif.Props.Triangle
import Verif.Model.Lenses
import Mathlib.Tactic.IntervalCases

/-! C33, C34 and C59: the image search `forward_raytrace`. -/

namespace Caustics

open Real

variable {R : ℝ × ℝ → ℝ × ℝ} {rf : List (ℝ × ℝ) → List (ℝ × ℝ)} {s : ℝ × ℝ} {eps x0 y0 fov : ℝ}
  {n max_depth : ℕ}

/-! ### C33 -/

/-- A search that ends normally has gone through at least one and at most `max_depth + 1` rounds, and
had candidates in each of them.  (`frLoop` is a total function, so the loop terminates on every input:
that is the rest of the claim.) -/
theorem C33_rounds {M : List (ℝ × ℝ)} {r : ℕ}
    (h : frLoop R rf s eps max_depth 0 (initialTriangles x0 y0 fov n) none = .ok (M, r)) :
    1 ≤ r ∧ r ≤ max_depth + 1 ∧ ∀ k < r, candidates R s (initialTriangles x0 y0 fov n) k ≠ [] := by
  have := frLoop_start (R := R) (rf := rf) (s := s) (eps := eps) (initialTriangles x0 y0 fov n) max_depth
  rw [h] at this
  exact ⟨this.pos, this.le, this.nonempty⟩

/-- In round `k` every candidate has exactly `4^-k` times the area of an initial triangle, which is
half a grid cell. -/
theorem C33_area (R : ℝ × ℝ → ℝ × ℝ) (s : ℝ × ℝ) (x0 y0 fov : ℝ) (n k : ℕ) :
    ∀ t ∈ candidates R s (initialTriangles x0 y0 fov n) k,
      triangleArea t = (fov / ((n : ℝ) - 1)) ^ 2 / 2 / 4 ^ k :=
  area_candidates (fun t ht => by rw [triangleArea_eq, det_initial ht]) k

/-- The image of every candidate is a triangle with the source in it. -/
theorem C33_candidates_contain_source (R : ℝ × ℝ → ℝ × ℝ) (s : ℝ × ℝ) (E0 : List (Tri ℝ)) (k : ℕ) :
    ∀ t ∈ candidates R s E0 k, InTri ⟨R t.p0, R t.p1, R t.p2⟩ s := by
  intro t ht
  have : ∀ E, t ∈ locate R s E → InTri (t.map R) s := fun E h =>
    ((contains_spec _ _).1 (mem_locate.1 h).2).2
  cases k with
  | zero => exact this _ ht
  | succ k => exact this _ ht

/-- Returned points are at least `epsilon` apart. -/
theorem C33_separated {l : List (ℝ × ℝ)} (he : 0 < eps)
    (h : forwardRaytrace s R rf x0 y0 fov n eps max_depth = .ok l) :
    l.Pairwise fun p q => eps ≤ dist2 p q := by
  unfold forwardRaytrace at h
  split at h
  · cases h
  · simp only [Except.ok.injEq] at h
    subst h
    exact (C32_points _ he).2.2.1

theorem abs_le_dist2 (p q : ℝ × ℝ) : |p.1 - q.1| ≤ dist2 p q ∧ |p.2 - q.2| ≤ dist2 p q := by
  unfold dist2
  constructor
  · rw [← Real.sqrt_sq_eq_abs]
    exact Real.sqrt_le_sqrt (by nlinarith [sq_nonneg (p.2 - q.2)])
  · rw [← Real.sqrt_sq_eq_abs]
    exact Real.sqrt_le_sqrt (by nlinarith [sq_nonneg (p.1 - q.1)])

/-- Returned points come from the root finder and are mapped onto the source, up to the tolerance,
whatever the root finder does. -/
theorem C33_points_hit_source {l : List (ℝ × ℝ)} (he : 0 < eps)
    (h : forwardRaytrace s R rf x0 y0 fov n eps max_depth = .ok l) :
    (∀ p ∈ l, |(R p).1 - s.1| ≤ eps + 1e-5 * |s.1| ∧ |(R p).2 - s.2| ≤ eps + 1e-5 * |s.2|) ∧
    ∃ j ≤ max_depth, ∀ p ∈ l,
      p ∈ rf ((candidates R s (initialTriangles x0 y0 fov n) j).map centroid) := by
  unfold forwardRaytrace at h
  split at h
  · cases h
  · rename_i M r hl
    simp only [Except.ok.injEq] at h
    subst h
    have := frLoop_start (R := R) (rf := rf) (s := s) (eps := eps) (initialTriangles x0 y0 fov n) max_depth
    rw [hl] at this
    obtain ⟨j, hj, -, hM⟩ := this.points
    have hsub := (C32_points M he).1.subset
    have hle := this.le
    rcases hM with ⟨h1, -, h3⟩ | hM
    · exact ⟨fun p hp => h3 p (hsub hp), j, by omega, fun p hp => h1 ▸ hsub hp⟩
    · refine ⟨fun p hp => ?_, j, by omega, fun p hp => ((hM p).1 (hsub hp)).1⟩
      have hd := ((hM p).1 (hsub hp)).2
      obtain ⟨ha, hb⟩ := abs_le_dist2 (R p) s
      have h1 : (0 : ℝ) ≤ 1e-5 * |s.1| := by positivity
      have h2 : (0 : ℝ) ≤ 1e-5 * |s.2| := by positivity
      constructor <;> linarith

/-- With no candidate in the first round (in particular with fewer than two grid points) the call
fails; it does not return an empty answer. -/
theorem C33_no_candidate (h : ∀ t ∈ initialTriangles x0 y0 fov n,
      triangleContains ⟨R t.p0, R t.p1, R t.p2⟩ s = false) :
    forwardRaytrace s R rf x0 y0 fov n eps max_depth = .error .indexError := by
  unfold forwardRaytrace
  rw [frLoop_nil]
  rw [if_neg (lt_irrefl 0)]
  unfold locate
  rw [List.filter_eq_nil_iff]
  intro t ht
  rw [show t.map R = ⟨R t.p0, R t.p1, R t.p2⟩ from rfl, h t ht]
  simp

/-- A failure has one of two reasons: no candidate was left in some round, or the depth did not allow
the triangles to become smaller than the resolution, in which case `Emid` has no value. -/
theorem C33_failures {e : PyErr} (h : forwardRaytrace s R rf x0 y0 fov n eps max_depth = .error e) :
    (e = .indexError ∧ ∃ k ≤ max_depth, candidates R s (initialTriangles x0 y0 fov n) k = []) ∨
    (e = .unboundLocal ∧ eps ^ 2 ≤ (fov / ((n : ℝ) - 1)) ^ 2 / 2 / 4 ^ max_depth) := by
  unfold forwardRaytrace at h
  have := frLoop_start (R := R) (rf := rf) (s := s) (eps := eps) (initialTriangles x0 y0 fov n) max_depth
  split at h
  · rename_i e' hl
    rw [hl] at this
    simp only [Except.error.injEq] at h
    subst h
    rcases this with h | ⟨h1, h2⟩
    · exact Or.inl h
    · refine Or.inr ⟨h1, ?_⟩
      obtain ⟨h3, h4⟩ := h2 max_depth le_rfl
      obtain ⟨t, r, ht⟩ := List.exists_cons_of_ne_nil h3
      rw [← C33_area R s x0 y0 fov n max_depth t (by rw [ht]; simp)]
      by_contra hc
      exact h4 ⟨t, by rw [ht]; rfl, not_le.1 hc⟩
  · cases h

/-- The second reason does occur: when the resolution is finer than what `max_depth` allows the call
never returns a value (the code means to warn and return what it has). -/
theorem C33_too_shallow (h : eps ^ 2 ≤ (fov / ((n : ℝ) - 1)) ^ 2 / 2 / 4 ^ max_depth) :
    forwardRaytrace s R rf x0 y0 fov n eps max_depth = .error .indexError ∨
    forwardRaytrace s R rf x0 y0 fov n eps max_depth = .error .unboundLocal := by
  have := frLoop_start (R := R) (rf := rf) (s := s) (eps := eps) (initialTriangles x0 y0 fov n) max_depth
  unfold forwardRaytrace
  split
  · rename_i e hl
    rw [hl] at this
    rcases this with h | h
    · exact Or.inl (by rw [h.1])
    · exact Or.inr (by rw [h.1])
  · rename_i M r hl
    rw [hl] at this
    obtain ⟨j, hj, ⟨t, ht, hlt⟩, -⟩ := this.points
    exfalso
    have hle := this.le
    rw [C33_area R s x0 y0 fov n j t (List.mem_of_mem_head? ht)] at hlt
    have : (fov / ((n : ℝ) - 1)) ^ 2 / 2 / 4 ^ max_depth ≤ (fov / ((n : ℝ) - 1)) ^ 2 / 2 / 4 ^ j := by
      apply div_le_div_of_nonneg_left (by positivity) (by positivity)
      exact pow_le_pow_right₀ (by norm_num) (by omega)
    linarith

/-! ### C34 -/

/-- For an invertible affine lens map and an image `v` of the source in the field of view, in every
round there are candidates and every candidate contains the image. -/
theorem C34_affine {a b c d : ℝ} (hdet : a * d - b * c ≠ 0) (e f : ℝ) (hf : 0 < fov) (hn : 2 ≤ n)
    {v : ℝ × ℝ} (hx : |v.1 - x0| ≤ fov / 2) (hy : |v.2 - y0| ≤ fov / 2) (k : ℕ) :
    let C := candidates (affine a b c d e f) (affine a b c d e f v) (initialTriangles x0 y0 fov n) k
    C ≠ [] ∧ ∀ t ∈ C, InTri t v := by
  obtain ⟨t, ht, hv⟩ := initial_cover hf hn hx hy (n := n)
  have hn1 : (n : ℝ) - 1 ≠ 0 := by
    have : (2 : ℝ) ≤ n := by exact_mod_cast hn
    linarith
  have hd : t.det ≠ 0 := by
    intro h0
    have := det_initial ht
    rw [h0, abs_zero] at this
    exact pow_ne_zero 2 (div_ne_zero hf.ne' hn1) this.symm
  obtain ⟨h1, h2⟩ := candidates_affine hdet e f v ⟨t, ht, (contains_iff hd v).2 hv⟩ k
  exact ⟨h1, fun t ht => ((contains_spec t v).1 (h2 t ht)).2⟩

/-- So the search for an affine lens never runs out of candidates. -/
theorem C34_never_index_error {a b c d : ℝ} (hdet : a * d - b * c ≠ 0) (e f : ℝ) (hf : 0 < fov)
    (hn : 2 ≤ n) {v : ℝ × ℝ} (hx : |v.1 - x0| ≤ fov / 2) (hy : |v.2 - y0| ≤ fov / 2) :
    forwardRaytrace (affine a b c d e f v) (affine a b c d e f) rf x0 y0 fov n eps max_depth ≠
      .error .indexError := by
  intro h
  rcases C33_failures h with ⟨-, k, -, hk⟩ | ⟨h, -⟩
  · exact (C34_affine hdet e f hf hn hx hy k).1 hk
  · cases h

theorem frLoop_exact {a b c d : ℝ} (hdet : a * d - b * c ≠ 0) (e f : ℝ) (hf : 0 < fov)
    (hn : 2 ≤ n) {v : ℝ × ℝ} (hx : |v.1 - x0| ≤ fov / 2) (hy : |v.2 - y0| ≤ fov / 2)
    (hrf : ∀ l, rf l = l.map fun _ => v) (he : 0 < eps)
    (hdepth : (fov / ((n : ℝ) - 1)) ^ 2 / 2 / 4 ^ max_depth < eps ^ 2) (m i : ℕ)
    (hm : max_depth - i = m) (hi : i ≤ max_depth) (E : List (Tri ℝ)) (Emid : Option (List (ℝ × ℝ)))
    (hE : locate (affine a b c d e f) (affine a b c d e f v)
      (if i > 0 then refineTriangles E else E) =
      candidates (affine a b c d e f) (affine a b c d e f v) (initialTriangles x0 y0 fov n) i) :
    ∃ (M : List (ℝ × ℝ)) (r : ℕ), frLoop (affine a b c d e f) rf (affine a b c d e f v) eps max_depth i E Emid = .ok (M, r) ∧
      M ≠ [] ∧ ∀ p ∈ M, p = v := by
  induction m generalizing i E Emid with
  | zero =>
    have hmd : i = max_depth := by omega
    obtain ⟨h1, h2⟩ := C34_affine hdet e f hf hn hx hy i
    obtain ⟨t, r, ht⟩ := List.exists_cons_of_ne_nil h1
    have hs : triangleArea t < eps ^ 2 := by
      rw [C33_area _ _ x0 y0 fov n i t (by rw [ht]; simp), hmd]; exact hdepth
    rw [ht] at h2
    rw [frLoop_small_done (hE.trans ht) hs ?_ ?_]
    · refine ⟨_, _, rfl, ?_, ?_⟩
      · rw [hrf]; simp
      · rw [hrf]; simp
    · rw [hrf, List.map_map, List.all_eq_true]
      intro x hx'
      rw [List.zipWith_map_right, List.zipWith_self, List.mem_map] at hx'
      obtain ⟨q, hq, rfl⟩ := hx'
      have hq' := hq
      rw [← ht] at hq'
      have hd : q.det ≠ 0 := by
        have hA := C33_area _ _ x0 y0 fov n i q hq'
        rw [triangleArea_eq] at hA
        intro h0
        rw [h0, abs_zero, zero_div] at hA
        have hn1 : (n : ℝ) - 1 ≠ 0 := by
          have : (2 : ℝ) ≤ n := by exact_mod_cast hn
          linarith
        have : (0 : ℝ) < (fov / ((n : ℝ) - 1)) ^ 2 / 2 / 4 ^ i := by
          have := div_ne_zero hf.ne' hn1
          positivity
        linarith
      exact (contains_iff hd v).2 (h2 q hq)
    · rw [hrf]
      intro p hp
      simp only [List.map_map, List.mem_map] at hp
      obtain ⟨_, _, rfl⟩ := hp
      unfold HitsSource
      constructor <;> rw [Function.comp, sub_self, abs_zero] <;> positivity
  | succ m ih =>
    obtain ⟨h1, h2⟩ := C34_affine hdet e f hf hn hx hy i
    obtain ⟨t, r, ht⟩ := List.exists_cons_of_ne_nil h1
    by_cases hs : triangleArea t < eps ^ 2
    · rw [ht] at h2
      rw [frLoop_small_done (hE.trans ht) hs ?_ ?_]
      · refine ⟨_, _, rfl, ?_, ?_⟩
        · rw [hrf]; simp
        · rw [hrf]; simp
      · rw [hrf, List.map_map, List.all_eq_true]
        intro x hx'
        rw [List.zipWith_map_right, List.zipWith_self, List.mem_map] at hx'
        obtain ⟨q, hq, rfl⟩ := hx'
        have hq' := hq
        rw [← ht] at hq'
        have hd : q.det ≠ 0 := by
          have hA := C33_area _ _ x0 y0 fov n i q hq'
          rw [triangleArea_eq] at hA
          intro h0
          rw [h0, abs_zero, zero_div] at hA
          have hn1 : (n : ℝ) - 1 ≠ 0 := by
            have : (2 : ℝ) ≤ n := by exact_mod_cast hn
            linarith
          have : (0 : ℝ) < (fov / ((n : ℝ) - 1)) ^ 2 / 2 / 4 ^ i := by
            have := div_ne_zero hf.ne' hn1
            positivity
          linarith
        exact (contains_iff hd v).2 (h2 q hq)
      · rw [hrf]
        intro p hp
        simp only [List.map_map, List.mem_map] at hp
        obtain ⟨_, _, rfl⟩ := hp
        unfold HitsSource
        constructor <;> rw [Function.comp, sub_self, abs_zero] <;> positivity
    · rw [frLoop_large (hE.trans ht) hs, if_neg (by omega), ← ht]
      exact ih (i + 1) (by omega) (by omega) _ _ locate_step

/-- With a root finder that solves the lens equation exactly and a depth that reaches the resolution,
the search returns the image, once. -/
theorem C34_finds_the_image {a b c d : ℝ} (hdet : a * d - b * c ≠ 0) (e f : ℝ) (hf : 0 < fov)
    (hn : 2 ≤ n) {v : ℝ × ℝ} (hx : |v.1 - x0| ≤ fov / 2) (hy : |v.2 - y0| ≤ fov / 2)
    (hrf : ∀ l, rf l = l.map fun _ => v) (he : 0 < eps)
    (hdepth : (fov / ((n : ℝ) - 1)) ^ 2 / 2 / 4 ^ max_depth < eps ^ 2) :
    forwardRaytrace (affine a b c d e f v) (affine a b c d e f) rf x0 y0 fov n eps max_depth =
      .ok [v] := by
  obtain ⟨M, r, h, hM, hv⟩ := frLoop_exact (rf := rf) hdet e f hf hn hx hy hrf he hdepth max_depth 0 rfl
    (Nat.zero_le _) (initialTriangles x0 y0 fov n) none rfl
  unfold forwardRaytrace
  rw [h]
  simp only [Except.ok.injEq]
  obtain ⟨p, q, rfl⟩ := List.exists_cons_of_ne_nil hM
  obtain ⟨r', hr'⟩ : ∃ r', removeDuplicatePoints (p :: q) eps = p :: r' := dedupLoop_head p q
  have hp : p = v := hv p (by simp)
  have hall : ∀ z ∈ removeDuplicatePoints (p :: q) eps, z = v :=
    fun z hz => hv z ((C32_points _ he).1.subset hz)
  have hpw := (C32_points (p :: q) he).2.2.1
  rw [hr'] at hpw hall ⊢
  cases r' with
  | nil => rw [hp]
  | cons z w =>
    exfalso
    have hz : z = v := hall z (by simp)
    have := (List.pairwise_cons.1 hpw).1 z (by simp)
    rw [hp, hz] at this
    simp only [dist2, sub_self, ne_eq, OfNat.ofNat_ne_zero, not_false_eq_true, zero_pow, add_zero,
      Real.sqrt_zero] at this
    linarith

/-- The lens map of a mass sheet plus external shear, as `raytrace` computes it. -/
noncomputable def sheetShearRaytrace (xs ys kappa xg yg gamma1 gamma2 : ℝ) (p : ℝ × ℝ) : ℝ × ℝ :=
  p - (sheetDeflection xs ys kappa p.1 p.2 + shearDeflection xg yg gamma1 gamma2 p.1 p.2)

/-- A mass sheet plus shear away from infinite magnification, `(1 - κ)² ≠ γ₁² + γ₂²`. -/
theorem C34_sheet_shear {xs ys kappa xg yg gamma1 gamma2 : ℝ}
    (hmag : (1 - kappa) ^ 2 ≠ gamma1 ^ 2 + gamma2 ^ 2) (hf : 0 < fov) (hn : 2 ≤ n)
    {v : ℝ × ℝ} (hx : |v.1 - x0| ≤ fov / 2) (hy : |v.2 - y0| ≤ fov / 2)
    (hrf : ∀ l, rf l = l.map fun _ => v) (he : 0 < eps)
    (hdepth : (fov / ((n : ℝ) - 1)) ^ 2 / 2 / 4 ^ max_depth < eps ^ 2) :
    forwardRaytrace (sheetShearRaytrace xs ys kappa xg yg gamma1 gamma2 v)
      (sheetShearRaytrace xs ys kappa xg yg gamma1 gamma2) rf x0 y0 fov n eps max_depth = .ok [v] := by
  have : sheetShearRaytrace xs ys kappa xg yg gamma1 gamma2 =
      affine (1 - kappa - gamma1) (-gamma2) (-gamma2) (1 - kappa + gamma1)
        (kappa * xs + gamma1 * xg + gamma2 * yg) (kappa * ys + gamma2 * xg - gamma1 * yg) := by
    funext p
    unfold sheetShearRaytrace affine sheetDeflection shearDeflection translateRotate
    ext
    · simp; ring
    · simp; ring
  rw [this]
  refine C34_finds_the_image ?_ _ _ hf hn hx hy hrf he hdepth
  intro h
  apply hmag
  linear_combination h

example : forwardRaytrace (sheetShearRaytrace 0 0 (1 / 2) 0 0 (1 / 10) (1 / 5) (3 / 10, -7 / 10))
    (sheetShearRaytrace 0 0 (1 / 2) 0 0 (1 / 10) (1 / 5)) (fun l => l.map fun _ => (3 / 10, -7 / 10))
    0 0 2 100 (1 / 100) 25 = .ok [(3 / 10, -7 / 10)] := by
  refine C34_sheet_shear (by norm_num) (by norm_num) (by norm_num) ?_ ?_ (fun _ => rfl) (by norm_num) ?_
  · norm_num [abs_le]
  · norm_num [abs_le]
  · norm_num

-- the depth is not always enough: the same call with `max_depth = 0` on a coarse grid has no answer
example : forwardRaytrace (sheetShearRaytrace 0 0 (1 / 2) 0 0 (1 / 10) (1 / 5) (3 / 10, -7 / 10))
    (sheetShearRaytrace 0 0 (1 / 2) 0 0 (1 / 10) (1 / 5)) rf 0 0 2 3 (1 / 100) 0 =
      .error .indexError ∨
    forwardRaytrace (sheetShearRaytrace 0 0 (1 / 2) 0 0 (1 / 10) (1 / 5) (3 / 10, -7 / 10))
    (sheetShearRaytrace 0 0 (1 / 2) 0 0 (1 / 10) (1 / 5)) rf 0 0 2 3 (1 / 100) 0 =
      .error .unboundLocal := C33_too_shallow (by norm_num)

example : (initialTriangles (0 : ℚ) 0 2 3).length = 8 ∧
    (initialTriangles (0 : ℚ) 0 2 3).head? = some ⟨(-1, -1), (-1, 0), (0, 0)⟩ ∧
    (candidates (affine 2 0 1 1 0 0) (1 / 5, 3 / 10) (initialTriangles (0 : ℚ) 0 2 3) 0) =
      [⟨(0, 0), (0, 1), (1, 1)⟩] := by decide +kernel

/-! ### C59 -/

/-- The claim for general lens maps: every image of the source in the field of view is found, at least
the search does not give up. -/
def C59_statement : Prop :=
  ∀ (R : ℝ × ℝ → ℝ × ℝ) (rf : List (ℝ × ℝ) → List (ℝ × ℝ)) (v : ℝ × ℝ) (x0 y0 fov eps : ℝ)
    (n max_depth : ℕ), Continuous R → 0 < fov → 2 ≤ n → 0 < eps →
    (fov / ((n : ℝ) - 1)) ^ 2 / 2 / 4 ^ max_depth < eps ^ 2 →
    |v.1 - x0| ≤ fov / 2 → |v.2 - y0| ≤ fov / 2 →
    (∀ l, ∀ p ∈ rf l, R p = R v) →
    ∃ l, forwardRaytrace (R v) R rf x0 y0 fov n eps max_depth = .ok l ∧ ∃ p ∈ l, dist2 p v < eps

/-- A fold within one cell hides both images: the vertices of the cell are all mapped to one side of
the source, so no triangle is found to contain it and the call raises `IndexError`. -/
theorem C59_fails_fold (rf : List (ℝ × ℝ) → List (ℝ × ℝ)) (eps : ℝ) (max_depth : ℕ) :
    forwardRaytrace (1 / 4, 0) (fun p => (p.1 ^ 2, p.2)) rf 0 0 2 2 eps max_depth =
      .error .indexError := by
  refine C33_no_candidate fun t ht => ?_
  obtain ⟨i, j, hi, hj, h⟩ := mem_initial.1 ht
  obtain rfl : i = 0 := by omega
  obtain rfl : j = 0 := by omega
  have h1 : ∀ k l : ℕ, k ≤ 1 → (gridNode (0 : ℝ) 0 2 2 k l).1 ^ 2 = 1 := by
    intro k l hk
    interval_cases k <;> norm_num [gridNode]
  refine contains_degenerate ?_ _
  rcases h with rfl | rfl <;>
    simp only [Tri.det, h1 0 _ (by norm_num), h1 1 _ (by norm_num), h1 (0 + 1) _ (by norm_num)] <;> ring

theorem C59_fails : ¬ C59_statement := by
  intro h
  obtain ⟨l, hl, -⟩ := h (fun p => (p.1 ^ 2, p.2)) (fun l => l.map fun _ => (1 / 2, 0)) (1 / 2, 0) 0 0 2
    1 2 1 (by fun_prop) (by norm_num) (by norm_num) (by norm_num) (by norm_num)
    (by norm_num [abs_le]) (by norm_num) (by intro l p hp; simp only [List.mem_map] at hp; obtain ⟨_, _, rfl⟩ := hp; rfl)
  have := C59_fails_fold (fun l => l.map fun _ => (1 / 2, 0)) 1 1
  norm_num at hl
  norm_num at this
  rw [this] at hl
  cases hl

/-- What does hold for every lens map: as long as the image of the first candidate of a round is
covered by the images of its own four children (as it is for a map that is affine on it) a candidate
remains in the next round, so the search does not fail for lack of candidates. -/
theorem C59_partial (R : ℝ × ℝ → ℝ × ℝ) (s : ℝ × ℝ) (E0 : List (Tri ℝ)) (k : ℕ) {t : Tri ℝ}
    (ht : (candidates R s E0 k).head? = some t)
    (hcov : ∃ c ∈ triangleUpsample t, triangleContains (c.map R) s = true) :
    candidates R s E0 (k + 1) ≠ [] := by
  obtain ⟨c, hc, hcs⟩ := hcov
  refine List.ne_nil_of_mem (a := c) (mem_locate.2 ⟨?_, hcs⟩)
  cases hC : candidates R s E0 k with
  | nil => rw [hC] at ht; cases ht
  | cons p r =>
    rw [hC, List.head?_cons, Option.some.injEq] at ht
    subst ht
    obtain ⟨r', hr'⟩ : ∃ r', removeTriangleDuplicates ((p :: r).flatMap triangleNeighbors) = p :: r' := by
      rw [List.flatMap_cons]
      exact dedupLoop_head (close := triangleEquals) p _
    unfold refineTriangles
    rw [hr']
    exact List.mem_flatMap.2 ⟨p, by simp, hc⟩

end Caustics

import Verif.Lemmas.Triangle
import Mathlib.Algebra.Order.Ring.Unbundled.Rat
import Mathlib.Data.Rat.Cast.Order

/-! C29-C32: triangles of the image finder. -/

namespace Caustics

variable {K : Type*} [Field K] [LinearOrder K] [IsStrictOrderedRing K]

/-- A right triangle with integer legs, used in the examples. -/
def tri0 : Tri ℚ := ⟨(1, 1), (4, 2), (2, 5)⟩

/-! ### C29 -/

/-- The answer is membership in the closed triangle, for non-degenerate triangles of either
orientation; a degenerate triangle contains nothing. -/
theorem C29_contains_iff (p : Tri K) (v : K × K) :
    triangleContains p v = true ↔ p.det ≠ 0 ∧ InTri p v := contains_spec p v

/-- The answer does not depend on the order in which the vertices are listed. -/
theorem C29_vertex_order (p : Tri K) (v : K × K) :
    triangleContains ⟨p.p1, p.p2, p.p0⟩ v = triangleContains p v ∧
    triangleContains ⟨p.p2, p.p0, p.p1⟩ v = triangleContains p v ∧
    triangleContains ⟨p.p1, p.p0, p.p2⟩ v = triangleContains p v ∧
    triangleContains ⟨p.p0, p.p2, p.p1⟩ v = triangleContains p v ∧
    triangleContains ⟨p.p2, p.p1, p.p0⟩ v = triangleContains p v := by
  have key : ∀ q : Tri K, (q.det = p.det ∨ q.det = -p.det) → (InTri q v ↔ InTri p v) →
      triangleContains q v = triangleContains p v := by
    intro q hd hi
    rw [Bool.eq_iff_iff, contains_spec, contains_spec, hi]
    rcases hd with hd | hd <;> simp [hd]
  refine ⟨key _ (Or.inl ?_) ?_, key _ (Or.inl ?_) ?_, key _ (Or.inr ?_) ?_, key _ (Or.inr ?_) ?_,
    key _ (Or.inr ?_) ?_⟩
  any_goals (simp only [Tri.det]; ring)
  · constructor <;> rintro ⟨a, b, c, h0, h1, h2, hs, rfl⟩
    · exact ⟨c, a, b, h2, h0, h1, by linear_combination hs, by simp only; abel⟩
    · exact ⟨b, c, a, h1, h2, h0, by linear_combination hs, by simp only; abel⟩
  · constructor <;> rintro ⟨a, b, c, h0, h1, h2, hs, rfl⟩
    · exact ⟨b, c, a, h1, h2, h0, by linear_combination hs, by simp only; abel⟩
    · exact ⟨c, a, b, h2, h0, h1, by linear_combination hs, by simp only; abel⟩
  · constructor <;> rintro ⟨a, b, c, h0, h1, h2, hs, rfl⟩ <;>
      exact ⟨b, a, c, h1, h0, h2, by linear_combination hs, by simp only; abel⟩
  · constructor <;> rintro ⟨a, b, c, h0, h1, h2, hs, rfl⟩ <;>
      exact ⟨a, c, b, h0, h2, h1, by linear_combination hs, by simp only; abel⟩
  · constructor <;> rintro ⟨a, b, c, h0, h1, h2, hs, rfl⟩ <;>
      exact ⟨c, b, a, h2, h1, h0, by linear_combination hs, by simp only; abel⟩

/-- Invariance under invertible affine maps (rotations, reflections, shears, rescalings). -/
theorem C29_affine_invariant {a b c d : K} (h : a * d - b * c ≠ 0) (e f : K) (p : Tri K) (v : K × K) :
    triangleContains (p.map (affine a b c d e f)) (affine a b c d e f v) = triangleContains p v :=
  contains_affine h e f p v

/-- All boundary points belong: vertices and every point of an edge. -/
theorem C29_boundary {p : Tri K} (h : p.det ≠ 0) {t : K} (h0 : 0 ≤ t) (h1 : t ≤ 1) :
    triangleContains p ((1 - t) • p.p0 + t • p.p1) = true ∧
    triangleContains p ((1 - t) • p.p0 + t • p.p2) = true ∧
    triangleContains p ((1 - t) • p.p1 + t • p.p2) = true := by
  have := sub_nonneg.2 h1
  refine ⟨(contains_iff h _).2 ⟨1 - t, t, 0, this, h0, le_rfl, by ring, by simp⟩,
    (contains_iff h _).2 ⟨1 - t, 0, t, this, le_rfl, h0, by ring, by simp⟩,
    (contains_iff h _).2 ⟨0, 1 - t, t, le_rfl, this, h0, by ring, by simp⟩⟩

/-- `triangle_area` is half the absolute cross product of two edges, so it vanishes exactly for
triangles that contain nothing according to `triangle_contains`. -/
theorem C29_area (p : Tri K) :
    triangleArea p = |(p.p1.1 - p.p0.1) * (p.p2.2 - p.p0.2) - (p.p1.2 - p.p0.2) * (p.p2.1 - p.p0.1)| / 2
    ∧ (triangleArea p = 0 ↔ ∀ v, triangleContains p v = false) := by
  refine ⟨triangleArea_eq p, ?_⟩
  rw [triangleArea_eq]
  constructor
  · intro h v
    refine contains_degenerate ?_ v
    rw [div_eq_zero_iff, abs_eq_zero] at h
    exact h.resolve_right two_ne_zero
  · intro h
    by_contra hp
    have hd : p.det ≠ 0 := fun e => hp (by rw [e, abs_zero, zero_div])
    have := (contains_iff hd p.p0).2 (inTri_vertex p).1
    rw [h] at this
    cases this

example : triangleContains tri0 (2, 2) = true ∧ triangleContains tri0 (4, 4) = false ∧
    triangleContains tri0 (5 / 2, 3 / 2) = true ∧ tri0.det = 11 := by decide +kernel

-- the other orientation
example : triangleContains ⟨tri0.p1, tri0.p0, tri0.p2⟩ (2, 2) = true := by decide +kernel

-- a degenerate triangle does not even contain its own vertices
example : triangleContains (⟨(0, 0), (1, 1), (2, 2)⟩ : Tri ℚ) (1, 1) = false := by decide +kernel

/-! ### C30 -/

/-- Four children, each with a quarter of the area. -/
theorem C30_area (p : Tri K) : (triangleUpsample p).length = 4 ∧
    ∀ c ∈ triangleUpsample p, triangleArea c = triangleArea p / 4 := by
  refine ⟨rfl, fun c hc => ?_⟩
  rw [triangleArea_eq, triangleArea_eq, det_upsample hc, abs_div, abs_of_pos (four_pos (α := K))]
  ring

/-- The children together are exactly the parent. -/
theorem C30_cover (p : Tri K) (v : K × K) :
    InTri p v ↔ ∃ c ∈ triangleUpsample p, InTri c v := by
  constructor
  · rw [inTri_iff_at]
    rintro ⟨a, b, ha, hb, hab, rfl⟩
    exact upsample_at ha hb hab
  · rintro ⟨c, hc, hv⟩
    obtain ⟨h0, h1, h2⟩ := inTri_vertex p
    simp only [triangleUpsample, List.mem_cons, List.not_mem_nil, or_false] at hc
    rcases hc with rfl | rfl | rfl | rfl
    · refine inTri_mono ?_ ?_ ?_ hv
      exacts [h0, inTri_mid h1 h0, inTri_mid h2 h0]
    · refine inTri_mono ?_ ?_ ?_ hv
      exacts [inTri_mid h1 h0, h1, inTri_mid h2 h1]
    · refine inTri_mono ?_ ?_ ?_ hv
      exacts [inTri_mid h2 h0, inTri_mid h2 h1, h2]
    · refine inTri_mono ?_ ?_ ?_ hv
      exacts [inTri_mid h1 h0, inTri_mid h2 h1, inTri_mid h2 h0]

/-- The same in terms of the code's own test. -/
theorem C30_contains (p : Tri K) (v : K × K) :
    triangleContains p v = (triangleUpsample p).any fun c => triangleContains c v := by
  rw [Bool.eq_iff_iff, contains_spec, List.any_eq_true, C30_cover]
  constructor
  · rintro ⟨hd, c, hc, hv⟩
    refine ⟨c, hc, (contains_iff ?_ v).2 hv⟩
    rw [det_upsample hc]
    exact div_ne_zero hd four_ne_zero
  · rintro ⟨c, hc, hv⟩
    rw [contains_spec] at hv
    refine ⟨fun h => hv.1 ?_, c, hc, hv.2⟩
    rw [det_upsample hc, h, zero_div]

example : (triangleUpsample tri0).map triangleArea = [11 / 8, 11 / 8, 11 / 8, 11 / 8] ∧
    triangleArea tri0 = 11 / 2 := by decide +kernel

example : (triangleUpsample tri0).map (triangleContains · (2, 2)) = [true, false, false, false] ∧
    (triangleUpsample tri0).map (triangleContains · (5 / 2, 3 / 2)) = [true, true, false, true] := by
  decide +kernel

/-! ### C31 -/

/-- Thirteen triangles, the first of them the parent, all with its area (and orientation). -/
theorem C31_shape (p : Tri K) : (triangleNeighbors p).length = 13 ∧
    (triangleNeighbors p).head? = some p ∧
    ∀ q ∈ triangleNeighbors p, q.det = p.det ∧ triangleArea q = triangleArea p :=
  ⟨rfl, rfl, fun q hq => ⟨det_neighbors hq, by rw [triangleArea_eq, triangleArea_eq, det_neighbors hq]⟩⟩

/-- Every one of them shares a vertex with the parent. -/
theorem C31_shares_vertex (p : Tri K) : ∀ q ∈ triangleNeighbors p, p.SharesVertex q := by
  intro q h
  simp only [triangleNeighbors, List.mem_cons, List.not_mem_nil, or_false] at h
  rcases h with h | rfl | rfl | rfl | rfl | rfl | rfl | rfl | rfl | rfl | rfl | rfl | rfl
  · exact ⟨p.p0, by simp, by simp [h]⟩
  · exact ⟨p.p1, by simp, by simp [Tri.shift]⟩
  · exact ⟨p.p0, by simp, Or.inr (Or.inl (by simp only [Tri.shift]; abel))⟩
  · exact ⟨p.p2, by simp, by simp [Tri.shift]⟩
  · exact ⟨p.p0, by simp, Or.inr (Or.inr (by simp only [Tri.shift]; abel))⟩
  · exact ⟨p.p2, by simp, by simp [Tri.shift]⟩
  · exact ⟨p.p1, by simp, Or.inr (Or.inr (by simp only [Tri.shift]; abel))⟩
  · exact ⟨p.p0, by simp, by simp⟩
  · exact ⟨p.p1, by simp, by simp [Tri.shift]⟩
  · exact ⟨p.p1, by simp, Or.inr (Or.inl (by simp only [Tri.shift]; abel))⟩
  · exact ⟨p.p2, by simp, by simp [Tri.shift]⟩
  · exact ⟨p.p2, by simp, Or.inr (Or.inr (by simp only [Tri.shift]; abel))⟩
  · exact ⟨p.p1, by simp, Or.inr (Or.inr (by simp only [Tri.shift]; abel))⟩

/-- The region covered: for a non-degenerate parent it is exactly the set of points whose three
barycentric coordinates `1 - a - b`, `a`, `b` all lie in `[-1, 2]` (the parent is where they lie in
`[0, 1]`), so a full neighbourhood of the parent. -/
theorem C31_cover {p : Tri K} (h : p.det ≠ 0) (a b : K) :
    (∃ q ∈ triangleNeighbors p, InTri q (p.at a b)) ↔
      (-1 ≤ a ∧ a ≤ 2) ∧ (-1 ≤ b ∧ b ≤ 2) ∧ (-1 ≤ 1 - a - b ∧ 1 - a - b ≤ 2) := by
  constructor
  · rintro ⟨q, hq, hv⟩
    rw [inTri_iff_at] at hv
    obtain ⟨s, t, hs, ht, hst, e⟩ := hv
    simp only [triangleNeighbors, List.mem_cons, List.not_mem_nil, or_false] at hq
    have fin : ∀ i j : K, p.at a b = p.at i j → ((-1 ≤ i ∧ i ≤ 2) ∧ (-1 ≤ j ∧ j ≤ 2) ∧
        (-1 ≤ 1 - i - j ∧ 1 - i - j ≤ 2)) →
        (-1 ≤ a ∧ a ≤ 2) ∧ (-1 ≤ b ∧ b ≤ 2) ∧ (-1 ≤ 1 - a - b ∧ 1 - a - b ≤ 2) := by
      intro i j e' hij
      obtain ⟨rfl, rfl⟩ := Tri.at_inj h e'
      exact hij
    have at_eq : ∀ i j : K, q.at s t = p.at i j → p.at a b = p.at i j := fun i j h => e.trans h
    have bnd : ∀ i j : K, -1 ≤ i → i ≤ 2 → -1 ≤ j → j ≤ 2 → -1 ≤ 1 - i - j → 1 - i - j ≤ 2 →
        ((-1 ≤ i ∧ i ≤ 2) ∧ (-1 ≤ j ∧ j ≤ 2) ∧ (-1 ≤ 1 - i - j ∧ 1 - i - j ≤ 2)) :=
      fun i j h1 h2 h3 h4 h5 h6 => ⟨⟨h1, h2⟩, ⟨h3, h4⟩, ⟨h5, h6⟩⟩
    rcases hq with rfl | rfl | rfl | rfl | rfl | rfl | rfl | rfl | rfl | rfl | rfl | rfl | rfl
    · exact fin s t (at_eq s t rfl) (by refine bnd _ _ ?_ ?_ ?_ ?_ ?_ ?_ <;> linarith)
    · refine fin (s + 1) t (at_eq _ _ ?_) (by refine bnd _ _ ?_ ?_ ?_ ?_ ?_ ?_ <;> linarith)
      ext <;> simp [Tri.at, Tri.shift] <;> ring
    · refine fin (s - 1) t (at_eq _ _ ?_) (by refine bnd _ _ ?_ ?_ ?_ ?_ ?_ ?_ <;> linarith)
      ext <;> simp [Tri.at, Tri.shift] <;> ring
    · refine fin s (t + 1) (at_eq _ _ ?_) (by refine bnd _ _ ?_ ?_ ?_ ?_ ?_ ?_ <;> linarith)
      ext <;> simp [Tri.at, Tri.shift] <;> ring
    · refine fin s (t - 1) (at_eq _ _ ?_) (by refine bnd _ _ ?_ ?_ ?_ ?_ ?_ ?_ <;> linarith)
      ext <;> simp [Tri.at, Tri.shift] <;> ring
    · refine fin (s - 1) (t + 1) (at_eq _ _ ?_) (by refine bnd _ _ ?_ ?_ ?_ ?_ ?_ ?_ <;> linarith)
      ext <;> simp [Tri.at, Tri.shift] <;> ring
    · refine fin (s + 1) (t - 1) (at_eq _ _ ?_) (by refine bnd _ _ ?_ ?_ ?_ ?_ ?_ ?_ <;> linarith)
      ext <;> simp [Tri.at, Tri.shift] <;> ring
    · refine fin (-s) (-t) (at_eq _ _ ?_) (by refine bnd _ _ ?_ ?_ ?_ ?_ ?_ ?_ <;> linarith)
      ext <;> simp [Tri.at] <;> ring
    · refine fin (1 - s) (-t) (at_eq _ _ ?_) (by refine bnd _ _ ?_ ?_ ?_ ?_ ?_ ?_ <;> linarith)
      ext <;> simp [Tri.at, Tri.shift] <;> ring
    · refine fin (2 - s) (-t) (at_eq _ _ ?_) (by refine bnd _ _ ?_ ?_ ?_ ?_ ?_ ?_ <;> linarith)
      ext <;> simp [Tri.at, Tri.shift] <;> ring
    · refine fin (-s) (1 - t) (at_eq _ _ ?_) (by refine bnd _ _ ?_ ?_ ?_ ?_ ?_ ?_ <;> linarith)
      ext <;> simp [Tri.at, Tri.shift] <;> ring
    · refine fin (-s) (2 - t) (at_eq _ _ ?_) (by refine bnd _ _ ?_ ?_ ?_ ?_ ?_ ?_ <;> linarith)
      ext <;> simp [Tri.at, Tri.shift] <;> ring
    · refine fin (1 - s) (1 - t) (at_eq _ _ ?_) (by refine bnd _ _ ?_ ?_ ?_ ?_ ?_ ?_ <;> linarith)
      ext <;> simp [Tri.at, Tri.shift] <;> ring
  · rintro ⟨⟨h1, h2⟩, ⟨h3, h4⟩, h5, h6⟩
    exact neighbors_cover h1 h2 h3 h4 (by linarith) (by linarith)

/-- Over the plane: every point has barycentric coordinates, so the previous theorem decides, for
every point, whether the search looks at it next; in particular everything up to one edge length
outside the parent is looked at. -/
theorem C31_neighbourhood {p : Tri K} (h : p.det ≠ 0) (v : K × K) :
    (triangleNeighbors p).any (fun q => triangleContains q v) = true ↔
      ∃ a b, v = p.at a b ∧ (-1 ≤ a ∧ a ≤ 2) ∧ (-1 ≤ b ∧ b ≤ 2) ∧ (-1 ≤ 1 - a - b ∧ 1 - a - b ≤ 2) := by
  obtain ⟨a, b, rfl⟩ := Tri.exists_at h v
  rw [List.any_eq_true]
  have : (∃ x ∈ triangleNeighbors p, triangleContains x (p.at a b) = true) ↔
      ∃ x ∈ triangleNeighbors p, InTri x (p.at a b) := by
    refine exists_congr fun q => and_congr_right fun hq => ?_
    exact contains_iff (by rw [det_neighbors hq]; exact h) _
  rw [this, C31_cover h]
  constructor
  · intro hh; exact ⟨a, b, rfl, hh⟩
  · rintro ⟨a', b', e, hh⟩
    obtain ⟨rfl, rfl⟩ := Tri.at_inj h e
    exact hh

example : tri0.at (-1 / 2) (3 / 2) = (1, 13 / 2) ∧
    (triangleNeighbors tri0).any (fun q => triangleContains q (1, 13 / 2)) = true ∧
    triangleContains tri0 (1, 13 / 2) = false := by decide +kernel

-- and it stops there
example : (triangleNeighbors tri0).any (fun q => triangleContains q (tri0.at (5 / 2) 0)) = false := by
  decide +kernel

/-! ### C32 -/

/-- `remove_duplicate_points`: a sub-list in input order starting with the first point; kept points
are at least `epsilon` apart; every input point is within `epsilon` of a kept one. -/
theorem C32_points (l : List (ℝ × ℝ)) {epsilon : ℝ} (he : 0 < epsilon) :
    (removeDuplicatePoints l epsilon).Sublist l ∧
    (removeDuplicatePoints l epsilon).head? = l.head? ∧
    (removeDuplicatePoints l epsilon).Pairwise (fun p q => epsilon ≤ dist2 p q) ∧
    ∀ p ∈ l, ∃ q ∈ removeDuplicatePoints l epsilon, dist2 p q < epsilon := by
  unfold removeDuplicatePoints
  refine ⟨by simpa using dedupLoop_sublist (close := fun p q => decide (dist2 p q < epsilon)) [] l,
    ?_, ?_, ?_⟩
  · cases l with
    | nil => rfl
    | cons x xs =>
      obtain ⟨r, hr⟩ := dedupLoop_head (close := fun p q => decide (dist2 p q < epsilon)) x xs
      rw [hr]; rfl
  · refine (dedupLoop_pairwise (close := fun p q => decide (dist2 p q < epsilon)) [] l
      List.Pairwise.nil).imp ?_
    intro a b h
    rw [decide_eq_false_iff_not, not_lt] at h
    have : dist2 a b = dist2 b a := by
      unfold dist2
      congr 1
      ring
    rw [this]; exact h
  · intro p hp
    rcases dedupLoop_rep (close := fun p q => decide (dist2 p q < epsilon)) [] l p hp with h | ⟨y, hy, h⟩
    · exact ⟨p, h, by simpa [dist2] using he⟩
    · exact ⟨y, hy, by simpa using h⟩

/-- Applying it again changes nothing. -/
theorem C32_points_idempotent (l : List (ℝ × ℝ)) (epsilon : ℝ) :
    removeDuplicatePoints (removeDuplicatePoints l epsilon) epsilon = removeDuplicatePoints l epsilon := by
  have h := dedupLoop_pairwise (close := fun p q => decide (dist2 p q < epsilon)) [] l
      List.Pairwise.nil
  exact dedupLoop_id (close := fun p q => decide (dist2 p q < epsilon)) [] _ h

/-- Two triangles are equal for the code when all six coordinates agree to within `1e-6`. -/
def TriClose (p q : Tri K) : Prop :=
  (|p.p0.1 - q.p0.1| < 1 / 10 ^ 6 ∧ |p.p0.2 - q.p0.2| < 1 / 10 ^ 6) ∧
  (|p.p1.1 - q.p1.1| < 1 / 10 ^ 6 ∧ |p.p1.2 - q.p1.2| < 1 / 10 ^ 6) ∧
  (|p.p2.1 - q.p2.1| < 1 / 10 ^ 6 ∧ |p.p2.2 - q.p2.2| < 1 / 10 ^ 6)

theorem triangleEquals_iff (p q : Tri K) : triangleEquals p q = true ↔ TriClose p q := by
  simp only [triangleEquals, TriClose, Bool.and_eq_true, decide_eq_true_eq, and_assoc]
  norm_num

/-- `remove_triangle_duplicates`, likewise. -/
theorem C32_triangles (l : List (Tri K)) :
    (removeTriangleDuplicates l).Sublist l ∧
    (removeTriangleDuplicates l).head? = l.head? ∧
    (removeTriangleDuplicates l).Pairwise (fun p q => ¬ TriClose p q) ∧
    ∀ p ∈ l, ∃ q ∈ removeTriangleDuplicates l, TriClose p q := by
  unfold removeTriangleDuplicates
  refine ⟨by simpa using dedupLoop_sublist (close := triangleEquals) [] l, ?_, ?_, ?_⟩
  · cases l with
    | nil => rfl
    | cons x xs =>
      obtain ⟨r, hr⟩ := dedupLoop_head (close := triangleEquals) x xs
      rw [hr]; rfl
  · refine (dedupLoop_pairwise (close := triangleEquals) [] l List.Pairwise.nil).imp ?_
    intro a b h hc
    have : triangleEquals b a = true := by
      rw [triangleEquals_iff]
      unfold TriClose at hc ⊢
      simpa only [abs_sub_comm] using hc
    rw [h] at this
    cases this
  · intro p hp
    rcases dedupLoop_rep (close := triangleEquals) [] l p hp with h | ⟨y, hy, h⟩
    · exact ⟨p, h, by simp [TriClose]⟩
    · exact ⟨y, hy, (triangleEquals_iff _ _).1 h⟩

example : removeTriangleDuplicates [tri0, tri0.shift (1, 0), tri0.shift (1 / 10 ^ 7, 0), tri0] =
    [tri0, tri0.shift (1, 0)] := by decide +kernel

/-- Being a duplicate is not transitive, so which representatives survive depends on the order: the
middle one of three first removes both others, listed last it is itself removed. -/
theorem C32_order_dependent :
    removeTriangleDuplicates [tri0.shift (6 / 10 ^ 7, 0), tri0, tri0.shift (12 / 10 ^ 7, 0)] =
      [tri0.shift (6 / 10 ^ 7, 0)] ∧
    removeTriangleDuplicates [tri0, tri0.shift (12 / 10 ^ 7, 0), tri0.shift (6 / 10 ^ 7, 0)] =
      [tri0, tri0.shift (12 / 10 ^ 7, 0)] := by decide +kernel

example : removeDuplicatePoints [(0, 0), (3, 4), (0, 0)] 1 = [(0, 0), (3, 4)] := by
  have h1 : dist2 (3, 4) (0, 0) = 5 := by
    unfold dist2
    rw [show ((3 : ℝ) - 0) ^ 2 + (4 - 0) ^ 2 = 5 ^ 2 by norm_num]
    exact Real.sqrt_sq (by norm_num)
  have h2 : dist2 (0, 0) (0, 0) = 0 := by simp [dist2]
  simp [removeDuplicatePoints, dedupLoop, h1, h2]

end Caustics

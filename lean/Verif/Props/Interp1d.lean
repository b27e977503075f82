import Verif.Lemmas.Interp1d
import Mathlib.Tactic.NormNum
import Mathlib.Data.Rat.Floor

/-! C08: `interp1d`. -/

namespace Caustics

variable {K : Type*} [Field K] [LinearOrder K] [IsStrictOrderedRing K]

private theorem hermite_hi (xlo xhi ylo yhi mlo mhi : K) (h : xhi - xlo ≠ 0) :
    hermite xlo xhi ylo yhi mlo mhi xhi = yhi := by
  unfold hermite hPoly
  rw [div_self h]
  ring

private theorem hermite_lo (xlo xhi ylo yhi mlo mhi : K) :
    hermite xlo xhi ylo yhi mlo mhi xlo = ylo := by
  unfold hermite hPoly
  rw [sub_self, zero_div]
  ring

private theorem hermite_affine (xlo xhi a b v : K) (h : xhi - xlo ≠ 0) :
    hermite xlo xhi (a + b * xlo) (a + b * xhi) b b v = a + b * v := by
  unfold hermite hPoly
  simp only
  generalize hd : xhi - xlo = d at *
  have : xhi = xlo + d := by rw [← hd]; ring
  subst this
  field_simp
  ring

private theorem sorted_get {x : List K} (hs : x.Pairwise (· < ·)) {i j : ℕ} (hij : i < j)
    (hj : j < x.length) : x[i] < x[j] := List.pairwise_iff_getElem.mp hs i j (by omega) hj hij

private theorem dropLast_sorted {x : List K} (hs : x.Pairwise (· < ·)) :
    x.dropLast.Pairwise (· < ·) := List.Pairwise.sublist (List.dropLast_sublist x) hs

/-- The two abscissae used are different. -/
private theorem lo_ne_hi {x : List K} (hs : x.Pairwise (· < ·)) (h2 : 2 ≤ x.length) {lo k : ℕ}
    (hk' : k < x.length) (hlo' : lo < x.length)
    (hlo : lo = if k = 0 then x.length - 1 else k - 1) : x[k] - x[lo] ≠ 0 := by
  rw [sub_ne_zero]
  split_ifs at hlo with h0
  · exact (sorted_get hs (by omega) hlo').ne
  · exact (sorted_get hs (by omega) hk').ne'

/-- C08: at every knot, first and last included, the tabulated value is returned, whatever
`extend`. -/
theorem C08_knots (x y : List K) (ht : Table x y) (extend : String) (i : ℕ) (hi : i < x.length) :
    interp1d x y x[i] extend = .ok (y[i]'(ht.len ▸ hi)) := by
  obtain ⟨h, h2, hs⟩ := ht
  obtain ⟨k, hk⟩ : ∃ k, searchsorted x.dropLast x[i] = k := ⟨_, rfl⟩
  obtain ⟨lo, hlo⟩ : ∃ lo, lo = if k = 0 then x.length - 1 else k - 1 := ⟨_, rfl⟩
  obtain ⟨hk', hlo', he⟩ := interp1d_eval x y h h2 x[i] extend lo k hk hlo
  rw [he]
  have hmax : x[i] ≤ x[x.length - 1] := by
    rcases Nat.lt_or_ge i (x.length - 1) with hlt | hge
    · exact (sorted_get hs hlt (by omega)).le
    · have : i = x.length - 1 := by omega
      simp [this]
  -- the count of knots strictly below knot `i` is `i`
  have hki : k = i := by
    have hspec := searchsorted_spec x.dropLast (dropLast_sorted hs) x[i]
    have hkle := searchsorted_le x.dropLast x[i]
    rw [List.length_dropLast] at hkle
    rw [hk] at hkle hspec
    rcases Nat.lt_trichotomy k i with hlt | heq | hgt
    · have h1 := (hspec k (by rw [List.length_dropLast]; omega)).mpr
      rw [List.getElem_dropLast] at h1
      have := h1 (sorted_get hs hlt hi)
      omega
    · exact heq
    · have h1 := (hspec i (by rw [List.length_dropLast]; omega)).mp (by omega)
      rw [List.getElem_dropLast] at h1
      exact absurd h1 (lt_irrefl _)
  have hret := hermite_hi x[lo] x[k] y[lo] y[k] (knotTangent x y lo) (knotTangent x y k)
    (lo_ne_hi hs h2 hk' hlo' hlo)
  have hxi : x[i] = x[k] := by simp [hki]
  have hyi : y[k] = y[i] := by simp [hki]
  simp only [gt_iff_lt, not_lt.mpr hmax, if_false]
  rw [hxi, hret, hyi]
  simp

/-- C08: affine data are reproduced exactly at every query, inside and outside the table, whatever
`extend` except "const" beyond the last knot. -/
theorem C08_affine (x : List K) (a b : K) (ht : Table x (x.map fun u => a + b * u)) (extend : String)
    (v : K) (hc : extend = "const" → ∀ u ∈ x.getLast?, v ≤ u) :
    interp1d x (x.map fun u => a + b * u) v extend = .ok (a + b * v) := by
  obtain ⟨h, h2, hs⟩ := ht
  obtain ⟨k, hk⟩ : ∃ k, searchsorted x.dropLast v = k := ⟨_, rfl⟩
  obtain ⟨lo, hlo⟩ : ∃ lo, lo = if k = 0 then x.length - 1 else k - 1 := ⟨_, rfl⟩
  obtain ⟨hk', hlo', he⟩ := interp1d_eval x (x.map fun u => a + b * u) h h2 v extend lo k hk hlo
  rw [he]
  have hsl : ∀ i, i + 1 < x.length → slopeAt x (x.map fun u => a + b * u) i = b := by
    intro i hi
    have := sorted_get hs (Nat.lt_succ_self i) hi
    have hne : x[i + 1] - x[i] ≠ 0 := sub_ne_zero.mpr this.ne'
    simp only [slopeAt, List.getD_eq_getElem?_getD, List.getElem?_map,
      List.getElem?_eq_getElem hi, List.getElem?_eq_getElem (show i < x.length by omega),
      Option.map_some, Option.getD_some]
    field_simp
    ring
  have htan : ∀ i, i < x.length → knotTangent x (x.map fun u => a + b * u) i = b := by
    intro i hi
    unfold knotTangent tangentAt
    split_ifs with h0 h1
    · exact hsl 0 (by omega)
    · exact hsl _ (by omega)
    · rw [hsl i (by omega), hsl (i - 1) (by omega)]; ring
  have hret : ∀ lo (hlo' : lo < x.length), x[k] - x[lo] ≠ 0 →
      hermite x[lo] x[k] (a + b * x[lo]) (a + b * x[k]) b b v = a + b * v :=
    fun lo _ hne => hermite_affine _ _ a b v hne
  simp only [List.getElem_map, htan _ hk', htan _ hlo']
  rw [hret _ hlo' (lo_ne_hi hs h2 hk' hlo' hlo)]
  have hlast : x.getLast? = some x[x.length - 1] := by
    rw [List.getLast?_eq_getElem?, List.getElem?_eq_getElem]
  have hne2 : x[x.length - 1] - x[x.length - 2] ≠ 0 :=
    sub_ne_zero.mpr (sorted_get hs (by omega) (by omega)).ne'
  split_ifs with h1 h3 h4 h5
  · have := hc h1 _ (by rw [hlast]; rfl)
    exact absurd h3 (not_lt.mpr this)
  · rfl
  · congr 1
    field_simp
    ring
  · rfl
  · rfl

/-- C08: beyond the last knot `extend="const"` returns the last value and `extend="linear"` the
line through the last two points. -/
theorem C08_extend (x y : List K) (ht : Table x y) (v xe xe' ye ye' : K)
    (hx : x.getLast? = some xe) (hx' : x.dropLast.getLast? = some xe')
    (hy : y.getLast? = some ye) (hy' : y.dropLast.getLast? = some ye') (hv : xe < v) :
    interp1d x y v "const" = .ok ye ∧
    interp1d x y v "linear" = .ok (ye + (ye - ye') / (xe - xe') * (v - xe)) := by
  obtain ⟨h, h2, hs⟩ := ht
  have e1 : x[x.length - 1] = xe := by
    rw [List.getLast?_eq_getElem?, List.getElem?_eq_getElem (by omega)] at hx
    simpa using hx
  have e2 : y[x.length - 1] = ye := by
    rw [List.getLast?_eq_getElem?, List.getElem?_eq_getElem (by omega)] at hy
    simpa [h] using hy
  have e3 : x[x.length - 2] = xe' := by
    rw [List.getLast?_eq_getElem?, List.getElem?_eq_getElem
      (by rw [List.length_dropLast]; omega)] at hx'
    simpa [Nat.sub_sub] using hx'
  have e4 : y[x.length - 2] = ye' := by
    rw [List.getLast?_eq_getElem?, List.getElem?_eq_getElem
      (by rw [List.length_dropLast]; omega)] at hy'
    simpa [h, Nat.sub_sub] using hy'
  constructor
  · obtain ⟨_, _, he⟩ := interp1d_eval x y h h2 v "const" _ _ rfl rfl
    rw [he]
    simp only [if_true, e1, e2, gt_iff_lt, hv]
  · obtain ⟨_, _, he⟩ := interp1d_eval x y h h2 v "linear" _ _ rfl rfl
    rw [he]
    simp only [if_true, e1, e2, e3, e4, gt_iff_lt, hv]
    rw [if_neg (by decide)]
    congr 1
    ring

/-- C08: between two neighbouring knots the result is one cubic polynomial in the query, with the
tabulated values and the knots' tangents at both ends.  As a tangent depends only on the knot, the
curve is continuously differentiable across knots. -/
theorem C08_segment (x y : List K) (ht : Table x y) (extend : String) (i : ℕ)
    (hi : i + 1 < x.length) :
    ∃ c2 c3 : K, let c0 := y.getD i 0; let c1 := knotTangent x y i
      let d := x[i + 1] - x[i]
      (∀ v, x[i] < v → v ≤ x[i + 1] → interp1d x y v extend
        = .ok (c0 + c1 * (v - x[i]) + c2 * (v - x[i]) ^ 2 + c3 * (v - x[i]) ^ 3)) ∧
      c0 + c1 * d + c2 * d ^ 2 + c3 * d ^ 3 = y.getD (i + 1) 0 ∧
      c1 + 2 * c2 * d + 3 * c3 * d ^ 2 = knotTangent x y (i + 1) := by
  obtain ⟨h, h2, hs⟩ := ht
  have hd : x[i + 1] - x[i] ≠ 0 := sub_ne_zero.mpr (sorted_get hs (Nat.lt_succ_self i) hi).ne'
  have hy0 : y.getD i 0 = y[i] := by
    rw [List.getD_eq_getElem?_getD, List.getElem?_eq_getElem (by omega), Option.getD_some]
  have hy1 : y.getD (i + 1) 0 = y[i + 1] := by
    rw [List.getD_eq_getElem?_getD, List.getElem?_eq_getElem (by omega), Option.getD_some]
  rw [hy0, hy1]
  generalize hdd : x[i + 1] - x[i] = d at hd
  generalize hm0 : knotTangent x y i = m0
  generalize hm1 : knotTangent x y (i + 1) = m1
  refine ⟨(3 * (y[i + 1] - y[i]) / d - 2 * m0 - m1) / d,
    (2 * (y[i] - y[i + 1]) / d + m0 + m1) / d ^ 2, ?_⟩
  refine ⟨?_, ?_, ?_⟩
  · intro v hv1 hv2
    have hk : searchsorted x.dropLast v = i + 1 := by
      have hspec := searchsorted_spec x.dropLast (dropLast_sorted hs) v
      have hkle := searchsorted_le x.dropLast v
      rw [List.length_dropLast] at hkle
      have hgt : i < searchsorted x.dropLast v := by
        rw [hspec i (by rw [List.length_dropLast]; omega), List.getElem_dropLast]; exact hv1
      by_contra hne
      have hgt' : i + 1 < searchsorted x.dropLast v := by omega
      have := (hspec (i + 1) (by rw [List.length_dropLast]; omega)).mp hgt'
      rw [List.getElem_dropLast] at this
      exact absurd this (not_lt.mpr hv2)
    obtain ⟨hk', hlo', he⟩ := interp1d_eval x y h h2 v extend i (i + 1) hk (by simp)
    have hmax : v ≤ x[x.length - 1] := by
      refine le_trans hv2 ?_
      rcases Nat.lt_or_ge (i + 1) (x.length - 1) with hlt | hge
      · exact (sorted_get hs hlt (by omega)).le
      · have : i + 1 = x.length - 1 := by omega
        simp [this]
    rw [he]
    simp only [gt_iff_lt, not_lt.mpr hmax, if_false, ite_self, hm0, hm1]
    congr 1
    unfold hermite hPoly
    simp only [hdd]
    field_simp
    ring
  · field_simp
    ring
  · field_simp
    ring

/-- C08: queries below the first knot never raise either. -/
theorem C08_total (x y : List K) (ht : Table x y) (extend : String) (v : K) :
    ∃ r, interp1d x y v extend = .ok r := by
  obtain ⟨_, _, he⟩ := interp1d_eval x y ht.len ht.two v extend _ _ rfl rfl
  exact ⟨_, he⟩

/-- A three-knot table: a knot, a midpoint, and all three extension rules. -/
example : Table [(0 : ℚ), 1, 3] [5, 7, 2] ∧
    (interp1d [(0 : ℚ), 1, 3] [5, 7, 2] 1 "extrapolate" = .ok 7) ∧
    (interp1d [(0 : ℚ), 1, 3] [5, 7, 2] 2 "extrapolate" = .ok (81 / 16)) ∧
    (interp1d [(0 : ℚ), 1, 3] [5, 7, 2] 4 "const" = .ok 2) ∧
    (interp1d [(0 : ℚ), 1, 3] [5, 7, 2] 4 "linear" = .ok (-1 / 2)) := by
  refine ⟨⟨rfl, by decide, by decide +kernel⟩, ?_⟩
  decide +kernel

end Caustics

import Verif.Spec.ForwardRaytrace
import Verif.Lemmas.Triangle

set_option linter.unusedSectionVars false

namespace Caustics

/-! ### The loop -/

section
variable {R : ℝ × ℝ → ℝ × ℝ} {rf : List (ℝ × ℝ) → List (ℝ × ℝ)} {s : ℝ × ℝ} {eps : ℝ}

/-- What a successful end of the loop after `r` rounds means. -/
structure LoopOk (R : ℝ × ℝ → ℝ × ℝ) (rf : List (ℝ × ℝ) → List (ℝ × ℝ)) (s : ℝ × ℝ) (eps : ℝ)
    (C : ℕ → List (Tri ℝ)) (max_depth : ℕ) (M : List (ℝ × ℝ)) (r : ℕ) : Prop where
  pos : 1 ≤ r
  le : r ≤ max_depth + 1
  nonempty : ∀ k < r, C k ≠ []
  points : ∃ j < r, Small eps (C j) ∧
    ((M = rf ((C j).map centroid) ∧ (List.zipWith triangleContains (C j) M).all id = true ∧
        ∀ p ∈ M, HitsSource R s eps p) ∨
      (∀ p, p ∈ M ↔ p ∈ rf ((C j).map centroid) ∧ dist2 (R p) s < eps))

/-- What the end of the loop means. -/
def Outcome (R : ℝ × ℝ → ℝ × ℝ) (rf : List (ℝ × ℝ) → List (ℝ × ℝ)) (s : ℝ × ℝ) (eps : ℝ)
    (C : ℕ → List (Tri ℝ)) (max_depth : ℕ) : Except PyErr (List (ℝ × ℝ) × ℕ) → Prop
  | .ok (M, r) => LoopOk R rf s eps C max_depth M r
  | .error e => (e = .indexError ∧ ∃ k ≤ max_depth, C k = []) ∨
      (e = .unboundLocal ∧ ∀ k ≤ max_depth, C k ≠ [] ∧ ¬ Small eps (C k))

theorem closeTo_iff (p : ℝ × ℝ) : closeTo eps s (R p) = true ↔ HitsSource R s eps p := by
  simp only [closeTo, HitsSource, Bool.and_eq_true, decide_eq_true_eq]

theorem frLoop_nil {md i : ℕ} {E : List (Tri ℝ)} {Emid : Option (List (ℝ × ℝ))}
    (h : locate R s (if i > 0 then refineTriangles E else E) = []) :
    frLoop R rf s eps md i E Emid = .error .indexError := by
  unfold frLoop
  simp only [h]

theorem frLoop_large {md i : ℕ} {E E' : List (Tri ℝ)} {Emid : Option (List (ℝ × ℝ))} {e : Tri ℝ}
    (h : locate R s (if i > 0 then refineTriangles E else E) = e :: E')
    (hs : ¬ triangleArea e < eps ^ 2) :
    frLoop R rf s eps md i E Emid =
      if i + 1 > md then
        match Emid with
        | none => .error .unboundLocal
        | some M => .ok (M, i + 1)
      else frLoop R rf s eps md (i + 1) (e :: E') Emid := by
  conv_lhs => unfold frLoop
  simp only [h, if_neg hs, dite_eq_ite]
  cases Emid <;> rfl

theorem frLoop_small_done {md i : ℕ} {E E' : List (Tri ℝ)} {Emid : Option (List (ℝ × ℝ))} {e : Tri ℝ}
    (h : locate R s (if i > 0 then refineTriangles E else E) = e :: E')
    (hs : triangleArea e < eps ^ 2)
    (hc : (List.zipWith triangleContains (e :: E') (rf ((e :: E').map centroid))).all id = true)
    (hh : ∀ p ∈ rf ((e :: E').map centroid), HitsSource R s eps p) :
    frLoop R rf s eps md i E Emid = .ok (rf ((e :: E').map centroid), i + 1) := by
  conv_lhs => unfold frLoop
  simp only [h, if_pos hs, hc, Bool.true_and]
  refine if_pos ?_
  rw [List.all_eq_true]
  intro x hx
  obtain ⟨p, hp, rfl⟩ := List.mem_map.1 hx
  exact (closeTo_iff p).2 (hh p hp)

open Classical in
theorem frLoop_small {md i : ℕ} {E E' : List (Tri ℝ)} {Emid : Option (List (ℝ × ℝ))} {e : Tri ℝ}
    (h : locate R s (if i > 0 then refineTriangles E else E) = e :: E')
    (hs : triangleArea e < eps ^ 2)
    (hc : ¬ ((List.zipWith triangleContains (e :: E') (rf ((e :: E').map centroid))).all id = true ∧
      ∀ p ∈ rf ((e :: E').map centroid), HitsSource R s eps p)) :
    frLoop R rf s eps md i E Emid =
      if i + 1 > md then
        .ok ((rf ((e :: E').map centroid)).filter (fun p => decide (dist2 (R p) s < eps)), i + 1)
      else frLoop R rf s eps md (i + 1) (e :: E')
        (some ((rf ((e :: E').map centroid)).filter (fun p => decide (dist2 (R p) s < eps)))) := by
  conv_lhs => unfold frLoop
  simp only [h, if_pos hs, dite_eq_ite]
  refine if_neg ?_
  rw [Bool.and_eq_true, List.all_eq_true (p := closeTo eps s)]
  rintro ⟨h1, h2⟩
  exact hc ⟨h1, fun p hp => (closeTo_iff p).1 (h2 _ (List.mem_map.2 ⟨p, hp, rfl⟩))⟩

theorem locate_step {E0 : List (Tri ℝ)} {i : ℕ} :
    locate R s (if i + 1 > 0 then refineTriangles (candidates R s E0 i) else candidates R s E0 i) =
      candidates R s E0 (i + 1) := by
  rw [if_pos (Nat.succ_pos i)]
  rfl

theorem frLoop_outcome (E0 : List (Tri ℝ)) (md : ℕ) (d i : ℕ) (hd : md - i = d)
    (hi : i ≤ md) (E : List (Tri ℝ)) (Emid : Option (List (ℝ × ℝ)))
    (hE : locate R s (if i > 0 then refineTriangles E else E) = candidates R s E0 i)
    (hne : ∀ k < i, candidates R s E0 k ≠ [])
    (hnone : Emid = none → ∀ k < i, ¬ Small eps (candidates R s E0 k))
    (hsome : ∀ M, Emid = some M → ∃ j < i, Small eps (candidates R s E0 j) ∧
          ∀ p, p ∈ M ↔ p ∈ rf ((candidates R s E0 j).map centroid) ∧ dist2 (R p) s < eps) :
    Outcome R rf s eps (candidates R s E0) md (frLoop R rf s eps md i E Emid) := by
  induction d generalizing i E Emid with
  | zero =>
    have hmd : i = md := by omega
    cases hC : candidates R s E0 i with
    | nil =>
      rw [frLoop_nil (hE.trans hC)]
      exact Or.inl ⟨rfl, i, hi, hC⟩
    | cons e E' =>
      have hne' : ∀ k < i + 1, candidates R s E0 k ≠ [] := by
        intro k hk
        rcases Nat.lt_succ_iff_lt_or_eq.1 hk with h | rfl
        · exact hne k h
        · rw [hC]; exact List.cons_ne_nil _ _
      by_cases hs : triangleArea e < eps ^ 2
      · have hsm : Small eps (candidates R s E0 i) := ⟨e, by rw [hC]; rfl, hs⟩
        by_cases hc : (List.zipWith triangleContains (e :: E') (rf ((e :: E').map centroid))).all id = true ∧
            ∀ p ∈ rf ((e :: E').map centroid), HitsSource R s eps p
        · rw [frLoop_small_done (hE.trans hC) hs hc.1 hc.2]
          exact ⟨Nat.succ_pos i, by omega, hne', i, Nat.lt_succ_self i, hsm,
            Or.inl (by rw [hC]; exact ⟨rfl, hc.1, hc.2⟩)⟩
        · rw [frLoop_small (hE.trans hC) hs hc, if_pos (by omega)]
          exact ⟨Nat.succ_pos i, by omega, hne', i, Nat.lt_succ_self i, hsm,
            Or.inr fun p => by rw [hC, List.mem_filter, decide_eq_true_eq]⟩
      · have hsm : ¬ Small eps (candidates R s E0 i) := by
          rintro ⟨e', h1, h2⟩
          rw [hC, List.head?_cons, Option.some.injEq] at h1
          exact hs (h1 ▸ h2)
        rw [frLoop_large (hE.trans hC) hs, if_pos (by omega)]
        cases hM : Emid with
        | none =>
          refine Or.inr ⟨rfl, fun k hk => ⟨hne' k (by omega), ?_⟩⟩
          rcases Nat.lt_or_eq_of_le (hmd ▸ hk : k ≤ i) with h | rfl
          · exact hnone hM k h
          · exact hsm
        | some M =>
          obtain ⟨j, hj, h1, h2⟩ := hsome M hM
          exact ⟨Nat.succ_pos i, by omega, hne', j, by omega, h1, Or.inr h2⟩
  | succ d ih =>
    cases hC : candidates R s E0 i with
    | nil =>
      rw [frLoop_nil (hE.trans hC)]
      exact Or.inl ⟨rfl, i, hi, hC⟩
    | cons e E' =>
      have hne' : ∀ k < i + 1, candidates R s E0 k ≠ [] := by
        intro k hk
        rcases Nat.lt_succ_iff_lt_or_eq.1 hk with h | rfl
        · exact hne k h
        · rw [hC]; exact List.cons_ne_nil _ _
      by_cases hs : triangleArea e < eps ^ 2
      · have hsm : Small eps (candidates R s E0 i) := ⟨e, by rw [hC]; rfl, hs⟩
        by_cases hc : (List.zipWith triangleContains (e :: E') (rf ((e :: E').map centroid))).all id = true ∧
            ∀ p ∈ rf ((e :: E').map centroid), HitsSource R s eps p
        · rw [frLoop_small_done (hE.trans hC) hs hc.1 hc.2]
          exact ⟨Nat.succ_pos i, by omega, hne', i, Nat.lt_succ_self i, hsm,
            Or.inl (by rw [hC]; exact ⟨rfl, hc.1, hc.2⟩)⟩
        · rw [frLoop_small (hE.trans hC) hs hc, if_neg (by omega)]
          refine ih (i + 1) (by omega) (by omega) _ _ (by rw [← hC]; exact locate_step) hne'
            (fun h => by cases h) fun M hM => ⟨i, Nat.lt_succ_self i, hsm, fun p => ?_⟩
          rw [Option.some.injEq] at hM
          rw [← hM, hC, List.mem_filter, decide_eq_true_eq]
      · have hsm : ¬ Small eps (candidates R s E0 i) := by
          rintro ⟨e', h1, h2⟩
          rw [hC, List.head?_cons, Option.some.injEq] at h1
          exact hs (h1 ▸ h2)
        rw [frLoop_large (hE.trans hC) hs, if_neg (by omega)]
        refine ih (i + 1) (by omega) (by omega) _ _ (by rw [← hC]; exact locate_step) hne'
          (fun h k hk => ?_) fun M hM => ?_
        · rcases Nat.lt_succ_iff_lt_or_eq.1 hk with hk | rfl
          · exact hnone h k hk
          · exact hsm
        · obtain ⟨j, hj, h⟩ := hsome M hM
          exact ⟨j, by omega, h⟩

theorem frLoop_start (E0 : List (Tri ℝ)) (md : ℕ) :
    Outcome R rf s eps (candidates R s E0) md (frLoop R rf s eps md 0 E0 none) :=
  frLoop_outcome E0 md _ 0 rfl (Nat.zero_le _) E0 none rfl (by simp) (by simp) (by simp)

end

/-! ### Areas -/

section
variable {K : Type*} [Field K] [LinearOrder K] [IsStrictOrderedRing K]

theorem mem_locate {R : K × K → K × K} {s : K × K} {E : List (Tri K)} {t : Tri K} :
    t ∈ locate R s E ↔ t ∈ E ∧ triangleContains (t.map R) s = true := List.mem_filter

theorem det_refine {E : List (Tri K)} {t : Tri K} (h : t ∈ refineTriangles E) :
    ∃ p ∈ E, t.det = p.det / 4 := by
  unfold refineTriangles at h
  obtain ⟨q, hq, ht⟩ := List.mem_flatMap.1 h
  have hq' : q ∈ E.flatMap triangleNeighbors := by
    have := (dedupLoop_sublist (close := triangleEquals) [] (E.flatMap triangleNeighbors)).subset hq
    simpa using this
  obtain ⟨p, hp, hn⟩ := List.mem_flatMap.1 hq'
  exact ⟨p, hp, by rw [det_upsample ht, det_neighbors hn]⟩

theorem area_refine {E : List (Tri K)} {t : Tri K} (h : t ∈ refineTriangles E) :
    ∃ p ∈ E, triangleArea t = triangleArea p / 4 := by
  obtain ⟨p, hp, hd⟩ := det_refine h
  refine ⟨p, hp, ?_⟩
  rw [triangleArea_eq, triangleArea_eq, hd, abs_div, abs_of_pos (four_pos (α := K))]
  ring

theorem area_candidates {R : K × K → K × K} {s : K × K} {E0 : List (Tri K)} {A : K}
    (hA : ∀ t ∈ E0, triangleArea t = A) (k : ℕ) :
    ∀ t ∈ candidates R s E0 k, triangleArea t = A / 4 ^ k := by
  induction k with
  | zero =>
    intro t ht
    rw [pow_zero, div_one]
    exact hA t (mem_locate.1 ht).1
  | succ k ih =>
    intro t ht
    obtain ⟨p, hp, h⟩ := area_refine (mem_locate.1 ht).1
    rw [h, ih p hp, pow_succ, div_div]

/-! ### The initial tiling -/

theorem linspace_getD {lo hi : K} {n i : ℕ} (hn : 2 ≤ n) (hi' : i < n) :
    (linspace lo hi n).getD i 0 = lo + i * ((hi - lo) / ((n : K) - 1)) := by
  unfold linspace
  rw [List.getD_eq_getElem?_getD, List.getElem?_map, List.getElem?_range hi']
  simp only [Option.map_some, Option.getD_some]
  rw [if_neg (by omega)]

/-- The node `(i, j)` of the grid. -/
def gridNode (x0 y0 fov : K) (n i j : ℕ) : K × K :=
  (x0 - fov / 2 + i * (fov / ((n : K) - 1)), y0 - fov / 2 + j * (fov / ((n : K) - 1)))

theorem mem_initial {x0 y0 fov : K} {n : ℕ} {t : Tri K} :
    t ∈ initialTriangles x0 y0 fov n ↔ ∃ i j, i < n - 1 ∧ j < n - 1 ∧
      (t = ⟨gridNode x0 y0 fov n i j, gridNode x0 y0 fov n i (j + 1),
          gridNode x0 y0 fov n (i + 1) (j + 1)⟩ ∨
        t = ⟨gridNode x0 y0 fov n i j, gridNode x0 y0 fov n (i + 1) j,
          gridNode x0 y0 fov n (i + 1) (j + 1)⟩) := by
  have hE : ∀ i j, i < n → j < n → 2 ≤ n →
      ((linspace (x0 - fov / 2) (x0 + fov / 2) n).getD i 0,
        (linspace (y0 - fov / 2) (y0 + fov / 2) n).getD j 0) = gridNode x0 y0 fov n i j := by
    intro i j hi hj hn
    rw [linspace_getD hn hi, linspace_getD hn hj, gridNode]
    rw [show x0 + fov / 2 - (x0 - fov / 2) = fov by ring, show y0 + fov / 2 - (y0 - fov / 2) = fov by ring]
  simp only [initialTriangles, List.mem_append, List.mem_map, List.mem_flatMap, List.mem_range]
  constructor
  · rintro (⟨⟨i, j⟩, ⟨i', hi, j', hj, h⟩, rfl⟩ | ⟨⟨i, j⟩, ⟨i', hi, j', hj, h⟩, rfl⟩)
    · cases h
      refine ⟨i, j, hi, hj, Or.inl ?_⟩
      rw [hE _ _ (by omega) (by omega) (by omega), hE _ _ (by omega) (by omega) (by omega),
        hE _ _ (by omega) (by omega) (by omega)]
    · cases h
      refine ⟨i, j, hi, hj, Or.inr ?_⟩
      rw [hE _ _ (by omega) (by omega) (by omega), hE _ _ (by omega) (by omega) (by omega),
        hE _ _ (by omega) (by omega) (by omega)]
  · rintro ⟨i, j, hi, hj, rfl | rfl⟩
    · refine Or.inl ⟨(i, j), ⟨i, hi, j, hj, rfl⟩, ?_⟩
      rw [hE _ _ (by omega) (by omega) (by omega), hE _ _ (by omega) (by omega) (by omega),
        hE _ _ (by omega) (by omega) (by omega)]
    · refine Or.inr ⟨(i, j), ⟨i, hi, j, hj, rfl⟩, ?_⟩
      rw [hE _ _ (by omega) (by omega) (by omega), hE _ _ (by omega) (by omega) (by omega),
        hE _ _ (by omega) (by omega) (by omega)]

theorem det_initial {x0 y0 fov : K} {n : ℕ} {t : Tri K} (h : t ∈ initialTriangles x0 y0 fov n) :
    |t.det| = (fov / ((n : K) - 1)) ^ 2 := by
  obtain ⟨i, j, hi, hj, rfl | rfl⟩ := mem_initial.1 h
  · simp only [Tri.det, gridNode]
    push_cast
    rw [← abs_neg, ← abs_of_nonneg (sq_nonneg (fov / ((n : K) - 1)))]
    congr 1; ring
  · simp only [Tri.det, gridNode]
    push_cast
    rw [← abs_of_nonneg (sq_nonneg (fov / ((n : K) - 1)))]
    congr 1; ring

theorem cell_exists {h u : K} (hh : 0 < h) (hu : 0 ≤ u) (m : ℕ) (hm : u ≤ (m + 1 : ℕ) * h) :
    ∃ i < m + 1, (i : K) * h ≤ u ∧ u ≤ ((i : K) + 1) * h := by
  induction m with
  | zero => exact ⟨0, by simp, by simpa using hu, by simpa using hm⟩
  | succ m ih =>
    by_cases hc : u ≤ (m + 1 : ℕ) * h
    · obtain ⟨i, hi, h1⟩ := ih hc
      exact ⟨i, by omega, h1⟩
    · refine ⟨m + 1, by omega, (not_le.1 hc).le, ?_⟩
      push_cast at hm ⊢
      exact hm

/-- Every point of the field of view lies in one of the initial triangles. -/
theorem initial_cover {x0 y0 fov : K} {n : ℕ} (hf : 0 < fov) (hn : 2 ≤ n) {v : K × K}
    (hx : |v.1 - x0| ≤ fov / 2) (hy : |v.2 - y0| ≤ fov / 2) :
    ∃ t ∈ initialTriangles x0 y0 fov n, InTri t v := by
  obtain ⟨m, rfl⟩ : ∃ m, n = m + 2 := ⟨n - 2, by omega⟩
  have hm : (0 : K) < (m : K) + 1 := by positivity
  have hcast : (((m + 2 : ℕ) : K) - 1) = (m : K) + 1 := by push_cast; ring
  set h := fov / ((((m + 2 : ℕ) : K)) - 1) with hh
  have hpos : 0 < h := by rw [hh, hcast]; positivity
  have hfov : ((m + 1 : ℕ) : K) * h = fov := by
    rw [hh, hcast]; push_cast; field_simp
  rw [abs_le] at hx hy
  obtain ⟨i, hi, hi1, hi2⟩ := cell_exists (u := v.1 - (x0 - fov / 2)) hpos (by linarith [hx.1]) m
    (by rw [hfov]; linarith [hx.2])
  obtain ⟨j, hj, hj1, hj2⟩ := cell_exists (u := v.2 - (y0 - fov / 2)) hpos (by linarith [hy.1]) m
    (by rw [hfov]; linarith [hy.2])
  set a := (v.1 - (x0 - fov / 2)) / h - i with ha
  set b := (v.2 - (y0 - fov / 2)) / h - j with hb
  have ea : v.1 = x0 - fov / 2 + (i + a) * h := by rw [ha]; field_simp; ring
  have eb : v.2 = y0 - fov / 2 + (j + b) * h := by rw [hb]; field_simp; ring
  have ha0 : 0 ≤ a := by rw [ha, sub_nonneg, le_div_iff₀ hpos]; exact hi1
  have ha1 : a ≤ 1 := by rw [ha, sub_le_iff_le_add, div_le_iff₀ hpos, add_comm]; exact hi2
  have hb0 : 0 ≤ b := by rw [hb, sub_nonneg, le_div_iff₀ hpos]; exact hj1
  have hb1 : b ≤ 1 := by rw [hb, sub_le_iff_le_add, div_le_iff₀ hpos, add_comm]; exact hj2
  rcases le_total a b with hab | hab
  · refine ⟨_, mem_initial.2 ⟨i, j, by omega, by omega, Or.inl rfl⟩, 1 - b, b - a, a, by linarith,
      by linarith, ha0, by ring, ?_⟩
    ext
    · simp only [gridNode, Prod.fst_add, Prod.smul_fst, smul_eq_mul, ea, ← hh]; push_cast; ring
    · simp only [gridNode, Prod.snd_add, Prod.smul_snd, smul_eq_mul, eb, ← hh]; push_cast; ring
  · refine ⟨_, mem_initial.2 ⟨i, j, by omega, by omega, Or.inr rfl⟩, 1 - a, a - b, b, by linarith,
      by linarith, hb0, by ring, ?_⟩
    ext
    · simp only [gridNode, Prod.fst_add, Prod.smul_fst, smul_eq_mul, ea, ← hh]; push_cast; ring
    · simp only [gridNode, Prod.snd_add, Prod.smul_snd, smul_eq_mul, eb, ← hh]; push_cast; ring

/-! ### Affine lenses -/

theorem candidates_affine {a b c d : K} (h : a * d - b * c ≠ 0) (e f : K) (v : K × K)
    {E0 : List (Tri K)} (hne : ∃ t ∈ E0, triangleContains t v = true) (k : ℕ) :
    candidates (affine a b c d e f) (affine a b c d e f v) E0 k ≠ [] ∧
      ∀ t ∈ candidates (affine a b c d e f) (affine a b c d e f v) E0 k,
        triangleContains t v = true := by
  have hall : ∀ E : List (Tri K), ∀ t ∈ locate (affine a b c d e f) (affine a b c d e f v) E,
      triangleContains t v = true := by
    intro E t ht
    rw [← contains_affine h e f]
    exact (mem_locate.1 ht).2
  have hnn : ∀ E : List (Tri K), (∃ t ∈ E, triangleContains t v = true) →
      locate (affine a b c d e f) (affine a b c d e f v) E ≠ [] := by
    rintro E ⟨t, ht, hc⟩
    refine List.ne_nil_of_mem (mem_locate.2 ⟨ht, ?_⟩)
    rw [contains_affine h e f]
    exact hc
  induction k with
  | zero => exact ⟨hnn _ hne, hall _⟩
  | succ k ih =>
    refine ⟨hnn _ ?_, hall _⟩
    obtain ⟨h1, h2⟩ := ih
    obtain ⟨p, r, hp⟩ := List.exists_cons_of_ne_nil h1
    have hpc := h2 p (by rw [hp]; simp)
    rw [hp]
    obtain ⟨r', hr'⟩ : ∃ r', removeTriangleDuplicates ((p :: r).flatMap triangleNeighbors) = p :: r' := by
      rw [List.flatMap_cons]
      exact dedupLoop_head (close := triangleEquals) p _
    obtain ⟨hd, hin⟩ := (contains_spec p v).1 hpc
    obtain ⟨s, t, hs, ht, hst, rfl⟩ := inTri_iff_at.1 hin
    obtain ⟨q, hq, hqv⟩ := upsample_at (p := p) hs ht hst
    refine ⟨q, ?_, (contains_iff ?_ _).2 hqv⟩
    · unfold refineTriangles
      rw [hr']
      exact List.mem_flatMap.2 ⟨p, by simp, hq⟩
    · rw [det_upsample hq]
      exact div_ne_zero hd four_ne_zero

end

end Caustics

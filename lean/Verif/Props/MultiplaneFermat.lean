import Verif.Lemmas.MultiplaneFermat
import Mathlib.Tactic.IntervalCases

/-! C90: Fermat's principle for `Multiplane.raytrace`. -/

namespace Caustics

/-- The excess arrival time, times `c`, of light that comes from the source at `p N` and crosses the plane
`i < N` at `p i` (angular positions, comoving distances `D i`, the source at `D N`; Petters et al. 2001,
eq. 6.22): `Σ D_i D_{i+1} / D_{i,i+1} ½ |p_i - p_{i+1}|² - D_i D_s / D_is ψ_i(p_i)`. -/
noncomputable def fermatTime (D : ℕ → ℝ) (psi : ℕ → ℝ → ℝ → ℝ) (N : ℕ) (p : ℕ → ℝ × ℝ) : ℝ :=
  ∑ i ∈ Finset.range N, (D i * D (i + 1) / (D (i + 1) - D i)
      * (((p i).1 - (p (i + 1)).1) ^ 2 + ((p i).2 - (p (i + 1)).2) ^ 2) / 2
    - D i * D N / (D N - D i) * psi i (p i).1 (p i).2)

/-- Moving the crossing point of one plane does not change the arrival time to first order. -/
def Stationary (D : ℕ → ℝ) (psi : ℕ → ℝ → ℝ → ℝ) (N : ℕ) (p : ℕ → ℝ × ℝ) : Prop :=
  ∀ j < N, HasGrad (fun a b => fermatTime D psi N (Function.update p j (a, b))) 0 0 (p j).1 (p j).2

/-- The gradient of the arrival time with respect to one crossing point. -/
theorem fermatTime_grad (D : ℕ → ℝ) (psi : ℕ → ℝ → ℝ → ℝ) (g : ℕ → ℝ × ℝ) (N : ℕ) (p : ℕ → ℝ × ℝ)
    (hD : ∀ i ≤ N, 0 < D i) (hlt : ∀ i < N, D i < D (i + 1)) {j : ℕ} (hj : j < N)
    (hg : HasGrad (psi j) (g j).1 (g j).2 (p j).1 (p j).2) :
    HasGrad (fun a b => fermatTime D psi N (Function.update p j (a, b)))
      (D j * (slopeBefore D (fun i => (p i).1) j - slopeAfter D (fun i => (p i).1) j - D N / (D N - D j) * (g j).1))
      (D j * (slopeBefore D (fun i => (p i).2) j - slopeAfter D (fun i => (p i).2) j - D N / (D N - D j) * (g j).2))
      (p j).1 (p j).2 := by
  set c : ℕ → ℝ := fun i => D i * D (i + 1) / (D (i + 1) - D i) with hc
  -- gradient of each term
  have hterm : ∀ i ∈ Finset.range N, HasGrad (fun a b => (fun p : ℕ → ℝ × ℝ => D i * D (i + 1) / (D (i + 1) - D i)
      * (((p i).1 - (p (i + 1)).1) ^ 2 + ((p i).2 - (p (i + 1)).2) ^ 2) / 2
      - D i * D N / (D N - D i) * psi i (p i).1 (p i).2) (Function.update p j (a, b)))
      ((if i = j then c j * ((p j).1 - (p (j + 1)).1) - D j * D N / (D N - D j) * (g j).1 else 0)
        + if i + 1 = j then -(c i * ((p i).1 - (p j).1)) else 0)
      ((if i = j then c j * ((p j).2 - (p (j + 1)).2) - D j * D N / (D N - D j) * (g j).2 else 0)
        + if i + 1 = j then -(c i * ((p i).2 - (p j).2)) else 0) (p j).1 (p j).2 := by
    intro i _
    by_cases h1 : i = j
    · subst h1
      have h2 : ¬ i + 1 = i := by omega
      simp only [Function.update_self, Function.update_of_ne h2, if_true, h2, if_false, add_zero]
      have hsq := ((HasGrad.fst (p i).1 (p i).2).sub (HasGrad.const (p (i + 1)).1 (p i).1 (p i).2))
      have hsq2 := ((HasGrad.snd (p i).1 (p i).2).sub (HasGrad.const (p (i + 1)).2 (p i).1 (p i).2))
      have hs := ((hsq.mul hsq).add (hsq2.mul hsq2)).const_mul (c i / 2)
      have := hs.sub (hg.const_mul (D i * D N / (D N - D i)))
      refine (this.congr (by ring) (by ring)).congr_near (Filter.Eventually.of_forall fun q => ?_)
      simp only [hc]; ring
    · by_cases h2 : i + 1 = j
      · subst h2
        have h3 : ¬ i = i + 1 := by omega
        simp only [Function.update_self, Function.update_of_ne h3, if_true, h3, if_false, zero_add]
        have hsq := ((HasGrad.const (p i).1 (p (i + 1)).1 (p (i + 1)).2).sub (HasGrad.fst (p (i + 1)).1 (p (i + 1)).2))
        have hsq2 := ((HasGrad.const (p i).2 (p (i + 1)).1 (p (i + 1)).2).sub (HasGrad.snd (p (i + 1)).1 (p (i + 1)).2))
        have hs := ((hsq.mul hsq).add (hsq2.mul hsq2)).const_mul (c i / 2)
        have := hs.sub (HasGrad.const (D i * D N / (D N - D i) * psi i (p i).1 (p i).2) (p (i + 1)).1 (p (i + 1)).2)
        refine (this.congr (by ring) (by ring)).congr_near (Filter.Eventually.of_forall fun q => ?_)
        simp only [hc]; ring
      · simp only [Function.update_of_ne h1, Function.update_of_ne h2, h1, h2, if_false, add_zero]
        exact HasGrad.const _ _ _
  have hsum := HasGrad.sum (Finset.range N) hterm
  refine (hsum.congr ?_ ?_).congr_near (Filter.Eventually.of_forall fun q => rfl)
  all_goals
    have hne : D (j + 1) - D j ≠ 0 := (sub_pos.2 (hlt j hj)).ne'
    rw [Finset.sum_add_distrib, Finset.sum_ite_eq' (Finset.range N), if_pos (Finset.mem_range.2 hj)]
    cases j with
    | zero =>
      simp only [Nat.add_eq_zero_iff, one_ne_zero, and_false, if_false, Finset.sum_const_zero, slopeBefore, slopeAfter, hc]
      field_simp
      ring
    | succ j =>
      have hne' : D (j + 1) - D j ≠ 0 := (sub_pos.2 (hlt j (by omega))).ne'
      simp only [Nat.add_right_cancel_iff]
      rw [Finset.sum_ite_eq' (Finset.range N), if_pos (Finset.mem_range.2 (by omega))]
      simp only [slopeBefore, slopeAfter, hc]
      field_simp
      ring

/-- Fermat's principle: among all paths from the source to the observer that are straight between the
planes, the ones of stationary arrival time are exactly the rays that `raytrace` follows: `raytrace` through
the planes in front of plane `i`, with that plane as source plane, leads from `p 0` to `p i`, and `raytrace`
through all of them to the source. -/
theorem C90_fermat (e : MPEnv ℝ) (hr : e.radToArcsec ≠ 0) (L : ℕ → ThinLensFn ℝ) (Z : ℕ → ℝ) (N : ℕ)
    (hZ : ∀ k < N, (L k).z = Z k) (h0 : 0 < Z 0) (hlt : ∀ k < N, Z k < Z (k + 1)) (hd : ∀ z, 0 < z → 0 < e.dist z)
    (hdlt : ∀ k < N, e.dist (Z k) < e.dist (Z (k + 1))) (p : ℕ → ℝ × ℝ)
    (hpsi : ∀ k < N, HasGrad (L k).psi ((L k).reduced (p k).1 (p k).2).1 ((L k).reduced (p k).1 (p k).2).2
      (p k).1 (p k).2) :
    Stationary (fun i => e.dist (Z i)) (fun k => (L k).psi) N p ↔
      ∀ i, 0 < i → i ≤ N →
        mpRaytrace e (Z i) ((List.range i).map fun k => (L k).plane e (Z N)) (p 0).1 (p 0).2 = some (p i) := by
  have hpos : ∀ k ≤ N, 0 < Z k := by
    intro k
    induction k with
    | zero => intro _; exact h0
    | succ k ih => intro hk; exact (ih (by omega)).trans (hlt k (by omega))
  have hDpos : ∀ k ≤ N, 0 < e.dist (Z k) := fun k hk => hd _ (hpos k hk)
  have hDs : ∀ m k, m < k → k ≤ N → e.dist (Z m) < e.dist (Z k) := by
    intro m k hmk
    induction k with
    | zero => omega
    | succ k ih =>
      intro hk
      rcases Nat.lt_succ_iff_lt_or_eq.1 hmk with h | h
      · exact (ih h (by omega)).trans (hdlt k (by omega))
      · subst h; exact hdlt _ (by omega)
  set al : ℕ → ℝ → ℝ → ℝ × ℝ := fun k => ((L k).plane e (Z N)).alpha with hal
  have hphys : ∀ k < N, ∀ x y, al k x y = (e.dist (Z N) / (e.dist (Z N) - e.dist (Z k)) * ((L k).reduced x y).1,
      e.dist (Z N) / (e.dist (Z N) - e.dist (Z k)) * ((L k).reduced x y).2) := by
    intro k hk x y
    have h1 : (1 + Z N) ≠ 0 := by have := hpos N le_rfl; positivity
    have h2 : e.dist (Z N) - e.dist (Z k) ≠ 0 := (sub_pos.2 (hDs k N hk le_rfl)).ne'
    simp only [hal, ThinLensFn.plane, ThinLensFn.physical, physicalFromReduced, MPEnv.angDist, MPEnv.angDist12, hZ k hk]
    ext <;> simp only <;> field_simp
  -- stationarity as bending at each plane
  have hstat : Stationary (fun i => e.dist (Z i)) (fun k => (L k).psi) N p ↔
      (∀ j < N, slopeBefore (fun i => e.dist (Z i)) (fun i => (p i).1) j
          - slopeAfter (fun i => e.dist (Z i)) (fun i => (p i).1) j = (al j (p j).1 (p j).2).1) ∧
      (∀ j < N, slopeBefore (fun i => e.dist (Z i)) (fun i => (p i).2) j
          - slopeAfter (fun i => e.dist (Z i)) (fun i => (p i).2) j = (al j (p j).1 (p j).2).2) := by
    rw [← forall₂_and]
    refine forall₂_congr fun j hj => ?_
    have hgrad := fermatTime_grad (fun i => e.dist (Z i)) (fun k => (L k).psi)
      (fun k => (L k).reduced (p k).1 (p k).2) N p hDpos hdlt hj (hpsi j hj)
    have hDj := (hDpos j hj.le).ne'
    rw [hphys j hj]
    constructor
    · intro h
      obtain ⟨h1, h2⟩ := hgrad.unique h
      rcases mul_eq_zero.1 h1 with h1 | h1
      · exact absurd h1 hDj
      · rcases mul_eq_zero.1 h2 with h2 | h2
        · exact absurd h2 hDj
        · exact ⟨sub_eq_zero.1 h1, sub_eq_zero.1 h2⟩
    · rintro ⟨h1, h2⟩
      refine hgrad.congr ?_ ?_
      · rw [h1]; simp
      · rw [h2]; simp
  rw [hstat, bends_iff (fun i => e.dist (Z i)) (fun i => (p i).1) (fun k => (al k (p k).1 (p k).2).1) N hDpos hdlt,
    bends_iff (fun i => e.dist (Z i)) (fun i => (p i).2) (fun k => (al k (p k).1 (p k).2).2) N hDpos hdlt,
    ← forall₂_and]
  change IsSeqRay e.dist Z al N (p 0).1 (p 0).2 p ↔ _
  have hZ' : ∀ k < N, ((fun k => (L k).plane e (Z N)) k).z = Z k := hZ
  constructor
  · intro h i hi0 hi
    exact seqRay_raytrace e hr _ Z N hZ' h0 hlt (fun z hz => (hd z hz).ne') _ _ p h hi0 hi
  · intro h
    obtain ⟨b, hb⟩ := seqRay_exists e.dist Z al N (p 0).1 (p 0).2
    have hbp : ∀ i ≤ N, b i = p i := by
      intro i hi
      rcases Nat.eq_zero_or_pos i with rfl | hi0
      · have := hb 0 hi
        ext
        · simpa using this.1
        · simpa using this.2
      · have h1 := seqRay_raytrace e hr _ Z N hZ' h0 hlt (fun z hz => (hd z hz).ne') _ _ b hb hi0 hi
        rw [h i hi0 hi, Option.some.injEq] at h1
        exact h1.symm
    intro i hi
    have := hb i hi
    rw [hbp i hi] at this
    refine ⟨this.1.trans ?_, this.2.trans ?_⟩
    · congr 1
      exact Finset.sum_congr rfl fun k hk => by rw [hbp k (by have := Finset.mem_range.1 hk; omega)]
    · congr 1
      exact Finset.sum_congr rfl fun k hk => by rw [hbp k (by have := Finset.mem_range.1 hk; omega)]

/-- The image positions of a source at `β` are the directions in which paths of stationary arrival time
arrive. -/
theorem C90_images (e : MPEnv ℝ) (hr : e.radToArcsec ≠ 0) (L : ℕ → ThinLensFn ℝ) (Z : ℕ → ℝ) (N : ℕ) (hN : 0 < N)
    (hZ : ∀ k < N, (L k).z = Z k) (h0 : 0 < Z 0) (hlt : ∀ k < N, Z k < Z (k + 1)) (hd : ∀ z, 0 < z → 0 < e.dist z)
    (hdlt : ∀ k < N, e.dist (Z k) < e.dist (Z (k + 1)))
    (hpsi : ∀ k < N, ∀ x y, HasGrad (L k).psi ((L k).reduced x y).1 ((L k).reduced x y).2 x y) (x y : ℝ) (β : ℝ × ℝ) :
    mpRaytrace e (Z N) ((List.range N).map fun k => (L k).plane e (Z N)) x y = some β ↔
      ∃ p : ℕ → ℝ × ℝ, p 0 = (x, y) ∧ p N = β ∧
        Stationary (fun i => e.dist (Z i)) (fun k => (L k).psi) N p := by
  constructor
  · intro h
    obtain ⟨b, hb⟩ := seqRay_exists e.dist Z (fun k => ((L k).plane e (Z N)).alpha) N x y
    have hb0 : b 0 = (x, y) := by
      have := hb 0 (Nat.zero_le _)
      ext
      · simpa using this.1
      · simpa using this.2
    have hray : ∀ i, 0 < i → i ≤ N → _ := fun i hi0 hi =>
      seqRay_raytrace e hr (fun k => (L k).plane e (Z N)) Z N hZ h0 hlt (fun z hz => (hd z hz).ne') x y b hb hi0 hi
    refine ⟨b, hb0, ?_, (C90_fermat e hr L Z N hZ h0 hlt hd hdlt b fun k hk => hpsi k hk _ _).2 ?_⟩
    · have := hray N hN le_rfl
      rw [h, Option.some.injEq] at this
      exact this.symm
    · rw [hb0]; exact hray
  · rintro ⟨p, hp0, hpN, hs⟩
    have := (C90_fermat e hr L Z N hZ h0 hlt hd hdlt p fun k hk => hpsi k hk _ _).1 hs N hN le_rfl
    rwa [hp0, hpN] at this

/-- A mass sheet of convergence `k` at redshift `z`. -/
noncomputable def bendSheet (z k : ℝ) : ThinLensFn ℝ := ⟨z, fun x y => (k * x, k * y), fun x y => k / 2 * (x * x + y * y)⟩

/-- Two sheets at comoving distances 1 and 2 in front of a source at 4: the ray seen at `(8, 16)` crosses the
second plane at `(16/3, 32/3)`, comes from `(8/3, 16/3)`, and its arrival time is stationary. -/
example : Stationary (fun i => ([1, 2, 4][i]?).getD 0) (fun k => (bendSheet (([1, 2][k]?).getD 0) (([1 / 2, 1 / 4][k]?).getD 0)).psi)
    2 (fun i => ([(8, 16), (16 / 3, 32 / 3), (8 / 3, 16 / 3)][i]?).getD (0, 0)) := by
  set L : ℕ → ThinLensFn ℝ := fun k => bendSheet (([1, 2][k]?).getD 0) (([1 / 2, 1 / 4][k]?).getD 0) with hL
  set Z : ℕ → ℝ := fun i => ([1, 2, 4][i]?).getD 0 with hZd
  set e : MPEnv ℝ := ⟨fun z => z, 1, 1, 1⟩ with he
  have hpsi : ∀ k x y, HasGrad (L k).psi ((L k).reduced x y).1 ((L k).reduced x y).2 x y := by
    intro k x y
    have h1 := (HasGrad.fst x y).mul (HasGrad.fst x y)
    have h2 := (HasGrad.snd x y).mul (HasGrad.snd x y)
    refine ((h1.add h2).const_mul ((([1 / 2, 1 / 4][k]?).getD 0 : ℝ) / 2)).congr ?_ ?_ <;> simp [hL, bendSheet] <;> ring
  have hlt : ∀ k < 2, Z k < Z (k + 1) := by
    intro k hk
    interval_cases k <;> norm_num [hZd]
  refine (C90_fermat e (by norm_num [he]) L Z 2 ?_ ?_ hlt (fun z hz => hz) hlt _ fun k _ => hpsi k _ _).2 ?_
  · intro k hk
    interval_cases k <;> simp [hL, hZd, bendSheet]
  · norm_num [hZd]
  · intro i hi0 hi
    refine seqRay_raytrace e (by norm_num [he]) (fun k => (L k).plane e (Z 2)) Z 2 ?_ ?_ hlt
      (fun z hz => (show (0 : ℝ) < z from hz).ne') _ _
      (fun i => ([(8, 16), (16 / 3, 32 / 3), (8 / 3, 16 / 3)][i]?).getD (0, 0)) ?_ hi0 hi
    · intro k hk
      interval_cases k <;> simp [hL, hZd, bendSheet, ThinLensFn.plane]
    · norm_num [hZd]
    · intro i hi
      interval_cases i <;> norm_num [hZd, hL, he, bendSheet, ThinLensFn.plane, ThinLensFn.physical, physicalFromReduced,
        MPEnv.angDist, MPEnv.angDist12, Finset.sum_range_succ]

end Caustics

import Verif.Lemmas.WeakLens
import Verif.Props.Multiplane
import Verif.Props.Planes
import Mathlib.Analysis.SpecialFunctions.Trigonometric.Deriv
import Mathlib.Analysis.SpecialFunctions.Trigonometric.Bounds

/-! # C108: weak lenses add up, whatever their redshifts -/

namespace Caustics

/-- A thin lens as a member of a `SinglePlane`, for its deflection and potential (the convergence is not used here). -/
def ThinLensFn.member (l : ThinLensFn ℝ) : LensFn ℝ := ⟨l.reduced, fun _ _ => 0, l.psi⟩

theorem members_deflection (ls : List (ThinLensFn ℝ)) (x y : ℝ) :
    (singlePlane (ls.map ThinLensFn.member)).deflection x y = (ls.map fun l => l.reduced x y).sum := by
  rw [(C14_superposition _ x y).1, List.map_map]
  rfl

theorem planes_sorted (e : MPEnv ℝ) (zs : ℝ) (ls : List (ThinLensFn ℝ)) (h : ls.Pairwise fun l m => l.z ≤ m.z) :
    SortedByZ (ls.map (ThinLensFn.plane e zs)) := by
  unfold SortedByZ
  rw [List.pairwise_map]
  exact h

theorem planes_between (e : MPEnv ℝ) (zs : ℝ) (hd : GrowingDist e.dist) (hz : 0 < zs) (ls : List (ThinLensFn ℝ))
    (h : ∀ l ∈ ls, 0 < l.z ∧ l.z < zs) : Between e.dist (ls.map (ThinLensFn.plane e zs)) zs := by
  refine ⟨fun l hl => ?_, hz, fun z h0 => (hd.1 z h0).ne'⟩
  obtain ⟨m, hm, rfl⟩ := List.mem_map.1 hl
  exact h m hm

/-- The effective deflection of a `Multiplane` of thin lenses differs from the deflection of the `SinglePlane` of the same
lenses by at most the sum, over all pairs of one lens in front of another, of the largest deflection of the first times the
Lipschitz constant of the second.  No distance enters. -/
theorem C108_bound (e : MPEnv ℝ) (zs : ℝ) (hr : e.radToArcsec ≠ 0) (hd : GrowingDist e.dist) (ls : List (ThinLensFn ℝ))
    (hne : ls ≠ []) (hsort : ls.Pairwise fun l m => l.z ≤ m.z) (hb : ∀ l ∈ ls, 0 < l.z ∧ l.z < zs)
    (A K : ThinLensFn ℝ → ℝ) (hA : ∀ l ∈ ls, ∀ p : ℝ × ℝ, ‖l.reduced p.1 p.2‖ ≤ A l)
    (hK : ∀ l ∈ ls, ∀ p q : ℝ × ℝ, ‖l.reduced p.1 p.2 - l.reduced q.1 q.2‖ ≤ K l * ‖p - q‖) (x y : ℝ) :
    ∃ a, mpEffectiveDeflection e zs (ls.map (ThinLensFn.plane e zs)) x y = some a ∧
      ‖a - (singlePlane (ls.map ThinLensFn.member)).deflection x y‖ ≤
        (ls.map fun k => K k * ((ls.filter fun l => l.z < k.z).map A).sum).sum := by
  have hzs : 0 < zs := by
    obtain ⟨l, hl⟩ := List.exists_mem_of_ne_nil ls hne
    exact (hb l hl).1.trans (hb l hl).2
  have hz1 : 1 + zs ≠ 0 := by linarith
  obtain ⟨beta, hray⟩ := ray_exists e.dist (ls.map (ThinLensFn.plane e zs)) x y
  refine ⟨_, C16_effective_deflection e zs hr _ (by simpa using hne) (planes_sorted e zs ls hsort)
    (planes_between e zs hd hzs ls hb) x y beta hray, ?_⟩
  have hK0 : ∀ l ∈ ls, 0 ≤ K l := by
    intro l hl
    have := (norm_nonneg _).trans (hK l hl (1, 0) (0, 0))
    rw [show ((1, 0) : ℝ × ℝ) - (0, 0) = (1, 0) by simp, Prod.norm_def] at this
    simpa using this
  -- how far the ray is from straight at each lens
  have hdev : ∀ k ∈ ls, ‖beta k.z - (x, y)‖ ≤ ((ls.filter fun l => l.z < k.z).map A).sum := by
    intro k hk
    rw [isRay_thin e zs hz1 ls x y beta hray (hb k hk).1, sub_sub_cancel_left, norm_neg]
    refine list_norm_sum_le _ _ _ fun l hl => ?_
    rw [List.mem_filter] at hl
    have hlt : l.z < k.z := by simpa using hl.2
    obtain ⟨w0, w1⟩ := rayWeight_mem hd (hb l hl.1).1 hlt (hb k hk).2.le
    rw [norm_smul, Real.norm_of_nonneg w0]
    exact (mul_le_of_le_one_left (norm_nonneg _) w1).trans (hA l hl.1 (beta l.z))
  have hsrc : (x - (beta zs).1, y - (beta zs).2) = (ls.map fun l => l.reduced (beta l.z).1 (beta l.z).2).sum := by
    have h := isRay_thin e zs hz1 ls x y beta hray hzs
    have hall : ls.filter (fun l => l.z < zs) = ls := List.filter_eq_self.2 fun l hl => by simpa using (hb l hl).2
    rw [hall] at h
    have h2 : (x - (beta zs).1, y - (beta zs).2) = (x, y) - beta zs := rfl
    rw [h2, h, sub_sub_cancel]
    congr 1
    refine List.map_congr_left fun l hl => ?_
    rw [rayWeight_source hd (hb l hl).1 (hb l hl).2, one_smul]
  rw [hsrc, members_deflection]
  have hsub : ∀ L : List (ThinLensFn ℝ), (L.map fun l => l.reduced (beta l.z).1 (beta l.z).2).sum -
      (L.map fun l => l.reduced x y).sum = (L.map fun l => l.reduced (beta l.z).1 (beta l.z).2 - l.reduced x y).sum := by
    intro L
    induction L with
    | nil => simp
    | cons l L ih => simp only [List.map_cons, List.sum_cons, ← ih]; abel
  rw [hsub]
  refine list_norm_sum_le _ _ _ fun k hk => ?_
  exact (hK k hk (beta k.z) (x, y)).trans (mul_le_mul_of_nonneg_left (hdev k hk) (hK0 k hk))

/-- To first order in their strength lenses at any redshifts deflect as if they were in one plane.  Only continuity of each
lens at the position of the image is needed. -/
theorem C108_weak (e : MPEnv ℝ) (zs : ℝ) (hr : e.radToArcsec ≠ 0) (hd : GrowingDist e.dist) (ls : List (ThinLensFn ℝ))
    (hne : ls ≠ []) (hsort : ls.Pairwise fun l m => l.z ≤ m.z) (hb : ∀ l ∈ ls, 0 < l.z ∧ l.z < zs) (x y : ℝ)
    (hc : ∀ l ∈ ls, ContinuousAt (fun p : ℝ × ℝ => l.reduced p.1 p.2) (x, y)) :
    ∃ a : ℝ → ℝ × ℝ,
      (∀ t, mpEffectiveDeflection e zs ((ls.map (ThinLensFn.times t)).map (ThinLensFn.plane e zs)) x y = some (a t)) ∧
      a 0 = 0 ∧ HasDerivAt a ((singlePlane (ls.map ThinLensFn.member)).deflection x y) 0 := by
  have hzs : 0 < zs := by
    obtain ⟨l, hl⟩ := List.exists_mem_of_ne_nil ls hne
    exact (hb l hl).1.trans (hb l hl).2
  have hz1 : 1 + zs ≠ 0 := by linarith
  have hex := fun t => ray_exists e.dist ((ls.map (ThinLensFn.times t)).map (ThinLensFn.plane e zs)) x y
  choose beta hray using hex
  have hsort' : ∀ t, (ls.map (ThinLensFn.times t)).Pairwise fun l m => l.z ≤ m.z := by
    intro t
    rw [List.pairwise_map]
    exact hsort
  have hb' : ∀ t, ∀ l ∈ ls.map (ThinLensFn.times t), 0 < l.z ∧ l.z < zs := by
    intro t l hl
    obtain ⟨m, hm, rfl⟩ := List.mem_map.1 hl
    exact hb m hm
  have hlim := ray_tendsto e zs hz1 ls (fun l hl => (hb l hl).1) x y hc beta hray
  have hval : ∀ t, (x - (beta t zs).1, y - (beta t zs).2) =
      t • (ls.map fun l => l.reduced (beta t l.z).1 (beta t l.z).2).sum := by
    intro t
    have h := isRay_thin e zs hz1 _ x y _ (hray t) hzs
    have hall : (ls.map (ThinLensFn.times t)).filter (fun l => l.z < zs) = ls.map (ThinLensFn.times t) :=
      List.filter_eq_self.2 fun l hl => by simpa using (hb' t l hl).2
    rw [hall, List.map_map] at h
    have h2 : (x - (beta t zs).1, y - (beta t zs).2) = (x, y) - beta t zs := rfl
    rw [h2, h, sub_sub_cancel, List.smul_sum, List.map_map]
    congr 1
    refine List.map_congr_left fun l hl => ?_
    simp only [Function.comp, ThinLensFn.times]
    rw [rayWeight_source hd (hb l hl).1 (hb l hl).2, one_smul]
  refine ⟨fun t => (x - (beta t zs).1, y - (beta t zs).2), fun t => ?_, ?_, ?_⟩
  · exact C16_effective_deflection e zs hr _ (by simpa using hne) (planes_sorted e zs _ (hsort' t))
      (planes_between e zs hd hzs _ (hb' t)) x y (beta t) (hray t)
  · simp only [hval, zero_smul]
  · rw [members_deflection, hasDerivAt_iff_tendsto_slope]
    have hsum : ∀ L : List (ThinLensFn ℝ), (∀ l ∈ L, l ∈ ls) →
        Filter.Tendsto (fun t => (L.map fun l => l.reduced (beta t l.z).1 (beta t l.z).2).sum) (nhds 0)
          (nhds (L.map fun l => l.reduced x y).sum) := by
      intro L
      induction L with
      | nil => intro _; simp
      | cons l L ih =>
        intro hL
        have hl := hL l (by simp)
        simp only [List.map_cons, List.sum_cons]
        refine Filter.Tendsto.add ?_ (ih fun m hm => hL m (by simp [hm]))
        exact (hc l hl).tendsto.comp (hlim _ l.z (hb l hl).1 (Nat.lt_succ_self _))
    refine ((hsum ls fun l hl => hl).mono_left nhdsWithin_le_nhds).congr' ?_
    filter_upwards [self_mem_nhdsWithin] with t ht
    have ht' : t ≠ 0 := ht
    simp only [slope, hval, vsub_eq_sub, sub_zero, zero_smul, smul_smul, inv_mul_cancel₀ ht', one_smul]

/-- The second order is there: two mass sheets deflect less than the sum of their convergences, by their product times a weight
that depends on the distances. -/
theorem C108_second_order (e : MPEnv ℝ) (zs z1 z2 : ℝ) (hr : e.radToArcsec ≠ 0) (hd : GrowingDist e.dist) (h1 : 0 < z1)
    (h12 : z1 < z2) (h2 : z2 < zs) (k1 k2 x y : ℝ) :
    let sheet : ℝ → ℝ → ThinLensFn ℝ := fun z k => ⟨z, fun x y => (k * x, k * y), fun x y => k / 2 * (x ^ 2 + y ^ 2)⟩
    let w := (e.dist z2 - e.dist z1) * e.dist zs / (e.dist z2 * (e.dist zs - e.dist z1))
    0 < w ∧ w < 1 ∧ mpEffectiveDeflection e zs ([sheet z1 k1, sheet z2 k2].map (ThinLensFn.plane e zs)) x y =
      some ((k1 + k2 - w * (k1 * k2)) * x, (k1 + k2 - w * (k1 * k2)) * y) := by
  intro sheet w
  have hz1 : 1 + zs ≠ 0 := by linarith
  have a := hd.1 z1 h1
  have b := hd.2 z1 z2 h1 h12
  have c := hd.2 z2 zs (h1.trans h12) h2
  have hpos : 0 < e.dist z2 * (e.dist zs - e.dist z1) := mul_pos (by linarith) (by linarith)
  refine ⟨div_pos (mul_pos (by linarith) (by linarith)) hpos, ?_, ?_⟩
  · rw [div_lt_one hpos]
    nlinarith
  · obtain ⟨beta, hray⟩ := ray_exists e.dist ([sheet z1 k1, sheet z2 k2].map (ThinLensFn.plane e zs)) x y
    have hb : ∀ l ∈ [sheet z1 k1, sheet z2 k2], 0 < l.z ∧ l.z < zs := by
      intro l hl
      simp only [List.mem_cons, List.not_mem_nil, or_false] at hl
      rcases hl with rfl | rfl
      · exact ⟨h1, h12.trans h2⟩
      · exact ⟨h1.trans h12, h2⟩
    rw [C16_effective_deflection e zs hr _ (by simp) (planes_sorted e zs _ (by simpa [sheet] using h12.le))
      (planes_between e zs hd (by linarith) _ hb) x y beta hray]
    have e1 := isRay_thin e zs hz1 _ x y beta hray h1
    have e2 := isRay_thin e zs hz1 _ x y beta hray (h1.trans h12)
    have e3 := isRay_thin e zs hz1 _ x y beta hray (show 0 < zs by linarith)
    have w1 := rayWeight_source hd h1 (h12.trans h2)
    have w2 := rayWeight_source hd (h1.trans h12) h2
    have hw : rayWeight e.dist zs z1 z2 = w := rfl
    simp only [sheet, List.filter_cons, List.filter_nil, lt_irrefl, decide_false, Bool.false_eq_true, if_false, not_lt.2 h12.le,
      List.map_nil, List.sum_nil, sub_zero] at e1
    simp only [sheet, List.filter_cons, List.filter_nil, lt_irrefl, decide_false, Bool.false_eq_true, if_false, h12, decide_true,
      if_true, List.map_nil, List.sum_nil, List.map_cons, List.sum_cons, add_zero, e1, hw] at e2
    simp only [sheet, List.filter_cons, List.filter_nil, h12.trans h2, h2, decide_true,
      if_true, List.map_nil, List.sum_nil, List.map_cons, List.sum_cons, add_zero, e1, e2, w1, w2, one_smul] at e3
    rw [e3]
    simp only [Prod.mk_sub_mk, Prod.smul_mk, smul_eq_mul, Prod.mk_add_mk, Option.some.injEq, Prod.mk.injEq]
    constructor <;> ring

/-! ### Examples -/

/-- `D(z) = z`. -/
noncomputable def lineEnv : MPEnv ℝ := ⟨fun z => z, 4, 2, 1⟩

theorem lineEnv_growing : GrowingDist lineEnv.dist := ⟨fun _ h => h, fun _ _ _ h => h⟩

/-- A lens with bounded, smooth deflection. -/
noncomputable def sineLens (z k : ℝ) : ThinLensFn ℝ := ⟨z, fun x y => (k * Real.sin x, k * Real.sin y), fun x y => -k * (Real.cos x + Real.cos y)⟩

example (x y : ℝ) : ∃ a, mpEffectiveDeflection lineEnv 4 ([sineLens 1 (1 / 100), sineLens 2 (1 / 100)].map (ThinLensFn.plane lineEnv 4)) x y
      = some a ∧ ‖a - (singlePlane ([sineLens 1 (1 / 100), sineLens 2 (1 / 100)].map ThinLensFn.member)).deflection x y‖ ≤ 1 / 10000 := by
  obtain ⟨a, h1, h2⟩ := C108_bound lineEnv 4 (by norm_num [lineEnv]) lineEnv_growing [sineLens 1 (1 / 100), sineLens 2 (1 / 100)]
    (by simp) (by simp [sineLens]) (by
      intro l hl
      simp only [List.mem_cons, List.not_mem_nil, or_false] at hl
      rcases hl with rfl | rfl <;> norm_num [sineLens]) (fun _ => 1 / 100) (fun _ => 1 / 100) (by
      intro l hl p
      have : ∀ z, ‖(sineLens z (1 / 100)).reduced p.1 p.2‖ ≤ 1 / 100 := by
        intro z
        simp only [sineLens, Prod.norm_def, Real.norm_eq_abs, abs_mul, sup_le_iff]
        have h1 := Real.abs_sin_le_one p.1
        have h2 := Real.abs_sin_le_one p.2
        rw [abs_of_pos (by norm_num : (0 : ℝ) < 1 / 100)]
        constructor <;> linarith
      simp only [List.mem_cons, List.not_mem_nil, or_false] at hl
      rcases hl with rfl | rfl <;> exact this _) (by
      intro l hl p q
      have hs : ∀ u v : ℝ, |Real.sin u - Real.sin v| ≤ |u - v| := fun u v => Real.abs_sin_sub_sin_le u v
      have : ∀ z, ‖(sineLens z (1 / 100)).reduced p.1 p.2 - (sineLens z (1 / 100)).reduced q.1 q.2‖ ≤ 1 / 100 * ‖p - q‖ := by
        intro z
        simp only [sineLens, Prod.norm_def, Prod.mk_sub_mk, Prod.fst_sub, Prod.snd_sub, Real.norm_eq_abs, ← mul_sub, abs_mul, sup_le_iff]
        rw [abs_of_pos (by norm_num : (0 : ℝ) < 1 / 100)]
        constructor
        · exact mul_le_mul_of_nonneg_left ((hs _ _).trans (le_max_left _ _)) (by norm_num)
        · exact mul_le_mul_of_nonneg_left ((hs _ _).trans (le_max_right _ _)) (by norm_num)
      simp only [List.mem_cons, List.not_mem_nil, or_false] at hl
      rcases hl with rfl | rfl <;> exact this _) x y
  refine ⟨a, h1, h2.trans ?_⟩
  norm_num [sineLens, List.filter_cons]

example (x y : ℝ) := C108_weak lineEnv 4 (by norm_num [lineEnv]) lineEnv_growing [sineLens 1 1, sineLens 2 3] (by simp)
  (by simp [sineLens]) (by
      intro l hl
      simp only [List.mem_cons, List.not_mem_nil, or_false] at hl
      rcases hl with rfl | rfl <;> norm_num [sineLens]) x y (by
      intro l hl
      simp only [List.mem_cons, List.not_mem_nil, or_false] at hl
      rcases hl with rfl | rfl <;> (simp only [sineLens]; fun_prop))

example := C108_second_order lineEnv 4 1 2 (by norm_num [lineEnv]) lineEnv_growing one_pos (by norm_num) (by norm_num) 1 1 1 0

end Caustics

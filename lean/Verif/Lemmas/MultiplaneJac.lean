import Verif.Lemmas.WeakLens
import Verif.Spec.Grad
import Mathlib.Analysis.Calculus.FDeriv.Comp
import Mathlib.Analysis.Calculus.FDeriv.Add
import Mathlib.Analysis.Calculus.FDeriv.Mul
import Mathlib.Analysis.Calculus.FDeriv.Prod

/-! The derivative of a ray through lens planes with respect to the direction in which it is observed. -/

namespace Caustics

theorem isRay_vec {dist : ℝ → ℝ} {lenses : List (MPlane ℝ)} {x y : ℝ} {beta : ℝ → ℝ × ℝ} (h : IsRay dist lenses x y beta)
    {z : ℝ} (hz : 0 < z) : beta z = (x, y) - ((lenses.filter fun l => l.z < z).map fun l =>
      ((dist z - dist l.z) / dist z) • l.alpha (beta l.z).1 (beta l.z).2).sum := by
  obtain ⟨h1, h2⟩ := h z hz
  refine Prod.ext ?_ ?_
  · rw [h1, Prod.fst_sub, list_sum_fst]
    rfl
  · rw [h2, Prod.snd_sub, list_sum_snd]
    rfl

theorem filter_lt_length {ι : Type} (f : ι → ℝ) (ls : List ι) {l : ι} {z : ℝ} (hl : l ∈ ls) (hlt : f l < z) :
    (ls.filter fun m => f m < f l).length < (ls.filter fun m => f m < z).length := by
  have hsub : (ls.filter fun m => f m < f l).Sublist ((ls.filter fun m => f m < z)) := by
    have : (ls.filter fun m => decide (f m < f l)) = (ls.filter fun m => decide (f m < z)).filter fun m => decide (f m < f l) := by
      rw [List.filter_filter]
      refine List.filter_congr fun m _ => ?_
      rw [Bool.eq_iff_iff]
      simp only [decide_eq_true_eq, Bool.and_eq_true]
      exact ⟨fun h => ⟨h, h.trans hlt⟩, fun h => h.1⟩
    rw [this]
    exact List.filter_sublist
  refine lt_of_le_of_ne hsub.length_le fun heq => ?_
  have h2 := hsub.eq_of_length heq
  have : l ∈ ls.filter fun m => f m < f l := by
    rw [h2, List.mem_filter]; exact ⟨hl, by simpa using hlt⟩
  simp at this

/-- A lens that deflects by a linear map. -/
def linPlane (U : MPlane ℝ → ℝ × ℝ →L[ℝ] ℝ × ℝ) (l : MPlane ℝ) : MPlane ℝ := ⟨l.z, fun u v => U l (u, v), fun _ _ => 0⟩

theorem ray_hasFDerivAt (dist : ℝ → ℝ) (lenses : List (MPlane ℝ)) (hpos : ∀ l ∈ lenses, 0 < l.z)
    (beta : ℝ → ℝ → ℝ → ℝ × ℝ) (hray : ∀ x y, IsRay dist lenses x y (beta x y)) (x y : ℝ)
    (U : MPlane ℝ → ℝ × ℝ →L[ℝ] ℝ × ℝ)
    (hU : ∀ l ∈ lenses, HasFDerivAt (fun p : ℝ × ℝ => l.alpha p.1 p.2) (U l) (beta x y l.z)) :
    ∀ n : ℕ, ∀ z, 0 < z → (lenses.filter fun l => l.z < z).length < n →
      ∃ D : ℝ × ℝ →L[ℝ] ℝ × ℝ, HasFDerivAt (fun p : ℝ × ℝ => beta p.1 p.2 z) D (x, y) ∧
        ∀ u v b, IsRay dist (lenses.map (linPlane U)) u v b → D (u, v) = b z := by
  intro n
  induction n with
  | zero => intro z _ hz; omega
  | succ n ih =>
    intro z hz hlen
    have hstep : ∀ L : List (MPlane ℝ), (∀ l ∈ L, l ∈ lenses.filter fun l => l.z < z) →
        ∃ S : ℝ × ℝ →L[ℝ] ℝ × ℝ,
          HasFDerivAt (fun p : ℝ × ℝ => (L.map fun l => ((dist z - dist l.z) / dist z) •
            l.alpha (beta p.1 p.2 l.z).1 (beta p.1 p.2 l.z).2).sum) S (x, y) ∧
          ∀ u v b, IsRay dist (lenses.map (linPlane U)) u v b →
            S (u, v) = (L.map fun l => ((dist z - dist l.z) / dist z) • U l (b l.z)).sum := by
      intro L
      induction L with
      | nil => exact fun _ => ⟨0, by simpa using hasFDerivAt_const (0 : ℝ × ℝ) ((x, y) : ℝ × ℝ), fun u v b _ => by simp⟩
      | cons l L ihL =>
        intro hL
        obtain ⟨S, hS, hSv⟩ := ihL fun m hm => hL m (by simp [hm])
        have hl := List.mem_filter.1 (hL l (by simp))
        have hlt : l.z < z := by simpa using hl.2
        obtain ⟨D, hD, hDv⟩ := ih l.z (hpos l hl.1)
          (lt_of_lt_of_le (filter_lt_length MPlane.z lenses hl.1 hlt) (Nat.lt_succ_iff.1 hlen))
        have hc : HasFDerivAt (fun p : ℝ × ℝ => l.alpha (beta p.1 p.2 l.z).1 (beta p.1 p.2 l.z).2) ((U l).comp D) (x, y) :=
          HasFDerivAt.comp (g := fun p : ℝ × ℝ => l.alpha p.1 p.2) (f := fun p : ℝ × ℝ => beta p.1 p.2 l.z) (x, y)
            (hU l hl.1) hD
        refine ⟨((dist z - dist l.z) / dist z) • (U l).comp D + S, ?_, fun u v b hb => ?_⟩
        · simp only [List.map_cons, List.sum_cons]
          exact (hc.const_smul ((dist z - dist l.z) / dist z)).add hS
        · simp only [List.map_cons, List.sum_cons, add_apply, smul_apply,
            ContinuousLinearMap.comp_apply, hDv u v b hb, hSv u v b hb]
    obtain ⟨S, hS, hSv⟩ := hstep _ fun l hl => hl
    refine ⟨ContinuousLinearMap.id ℝ (ℝ × ℝ) - S, ?_, fun u v b hb => ?_⟩
    · refine ((hasFDerivAt_id ((x, y) : ℝ × ℝ)).sub hS).congr_of_eventuallyEq (Filter.Eventually.of_forall fun p => ?_)
      exact isRay_vec (hray p.1 p.2) hz
    · rw [isRay_vec hb hz, List.filter_map, List.map_map]
      simp only [sub_apply, ContinuousLinearMap.id_apply, hSv u v b hb]
      rfl

/-- The matrix `((a, b), (c, d))` as a linear map. -/
noncomputable def matLin (a b c d : ℝ) : ℝ × ℝ →L[ℝ] ℝ × ℝ :=
  ((ContinuousLinearMap.fst ℝ ℝ ℝ).smulRight a + (ContinuousLinearMap.snd ℝ ℝ ℝ).smulRight b).prod
    ((ContinuousLinearMap.fst ℝ ℝ ℝ).smulRight c + (ContinuousLinearMap.snd ℝ ℝ ℝ).smulRight d)

theorem matLin_apply (a b c d u v : ℝ) : matLin a b c d (u, v) = (a * u + b * v, c * u + d * v) := by
  simp [matLin, mul_comm]

theorem hasJac_iff {f : ℝ → ℝ → ℝ × ℝ} {a b c d x y : ℝ} :
    HasJac f a b c d x y ↔ HasFDerivAt (fun p : ℝ × ℝ => f p.1 p.2) (matLin a b c d) (x, y) := by
  unfold HasJac HasGrad matLin
  constructor
  · rintro ⟨h1, h2⟩
    exact h1.prodMk h2
  · intro h
    exact ⟨h.fst, h.snd⟩

theorem hasJac_of_fderiv {f : ℝ → ℝ → ℝ × ℝ} {D : ℝ × ℝ →L[ℝ] ℝ × ℝ} {x y : ℝ}
    (h : HasFDerivAt (fun p : ℝ × ℝ => f p.1 p.2) D (x, y)) :
    HasJac f (D (1, 0)).1 (D (0, 1)).1 (D (1, 0)).2 (D (0, 1)).2 x y := by
  rw [hasJac_iff]
  have : D = matLin (D (1, 0)).1 (D (0, 1)).1 (D (1, 0)).2 (D (0, 1)).2 := by
    ext <;> simp [matLin]
  rwa [← this]

end Caustics

import Verif.Lemmas.Multiplane
import Mathlib.Topology.Algebra.Module.Basic
import Mathlib.Topology.MetricSpace.Pseudo.Constructions
import Mathlib.Topology.Order.OrderClosed
import Mathlib.Topology.UniformSpace.Real
import Mathlib.Topology.Algebra.Order.Field
import Mathlib.Order.Filter.Ultrafilter.Basic
import Mathlib.Data.Fintype.EquivFin
import Mathlib.Data.Set.Finite.Basic
import Mathlib.Algebra.BigOperators.Fin

/-!
Solutions of the multiplane lens equation depend continuously on everything in it.
-/

open Filter Topology

namespace Caustics

variable {P : Type*}

/-- Which lenses are in front of the target does not change along an ultrafilter; those that come to lie at the target
have a weight tending to zero. -/
theorem ray_step {n : ℕ} (U : Ultrafilter P) (p0 : P) (z D : Fin n → P → ℝ) (a : Fin n → P → ℝ × ℝ → ℝ × ℝ)
    (th : Fin n → P → ℝ × ℝ) (o : P → ℝ × ℝ) (zt Dt : P → ℝ) (tt : P → ℝ × ℝ)
    (hz : ∀ j, Tendsto (z j) U (𝓝 (z j p0))) (hD : ∀ j, Tendsto (D j) U (𝓝 (D j p0)))
    (hDz : ∀ j, z j p0 = zt p0 → D j p0 = Dt p0)
    (ha : ∀ j, Tendsto (fun q : P × ℝ × ℝ => a j q.1 q.2) (↑U ×ˢ 𝓝 (th j p0)) (𝓝 (a j p0 (th j p0))))
    (ho : Tendsto o U (𝓝 (o p0))) (hzt : Tendsto zt U (𝓝 (zt p0))) (hDt : Tendsto Dt U (𝓝 (Dt p0))) (hne : Dt p0 ≠ 0)
    (heq : ∀ᶠ p in U, tt p = o p - ∑ j, (if z j p < zt p then (Dt p - D j p) / Dt p else 0) • a j p (th j p))
    (heq0 : tt p0 = o p0 - ∑ j, (if z j p0 < zt p0 then (Dt p0 - D j p0) / Dt p0 else 0) • a j p0 (th j p0))
    (ih : ∀ j, (∀ᶠ p in U, z j p < zt p) → Tendsto (th j) U (𝓝 (th j p0))) : Tendsto tt U (𝓝 (tt p0)) := by
  rw [heq0]
  refine Tendsto.congr' (heq.mono fun p h => h.symm) (ho.sub (tendsto_finsetSum _ fun j _ => ?_))
  by_cases hj : ∀ᶠ p in U, z j p < zt p
  · have h1 : Tendsto (fun p => (Dt p - D j p) / Dt p) U (𝓝 ((Dt p0 - D j p0) / Dt p0)) := (hDt.sub (hD j)).div hDt hne
    have h2 : Tendsto (fun p => a j p (th j p)) U (𝓝 (a j p0 (th j p0))) :=
      (ha j).comp (tendsto_id.prodMk (ih j hj))
    have h3 : (if z j p0 < zt p0 then (Dt p0 - D j p0) / Dt p0 else 0) = (Dt p0 - D j p0) / Dt p0 := by
      split_ifs with h
      · rfl
      · have hle : z j p0 ≤ zt p0 := le_of_tendsto_of_tendsto (hz j) hzt (hj.mono fun _ h => le_of_lt h)
        rw [hDz j (le_antisymm hle (not_lt.1 h)), sub_self, zero_div]
    rw [h3]
    exact (h1.smul h2).congr' (hj.mono fun p hp => by simp only [if_pos hp])
  · have h0 : ¬ z j p0 < zt p0 := fun h => hj ((hz j).eventually_lt hzt h)
    rw [if_neg h0, zero_smul]
    exact tendsto_const_nhds.congr' ((Ultrafilter.eventually_not.2 hj).mono fun p hp => by simp only [if_neg hp, zero_smul])

/-- All positions of the ray, on the lens planes and at a target, are continuous in the parameters. -/
theorem ray_tendsto_param {n : ℕ} (l : Filter P) (p0 : P) (z D : Fin n → P → ℝ) (a : Fin n → P → ℝ × ℝ → ℝ × ℝ)
    (th : Fin n → P → ℝ × ℝ) (o : P → ℝ × ℝ) (zt Dt : P → ℝ) (tt : P → ℝ × ℝ)
    (hz : ∀ j, Tendsto (z j) l (𝓝 (z j p0))) (hD : ∀ j, Tendsto (D j) l (𝓝 (D j p0)))
    (hDne : ∀ j, D j p0 ≠ 0) (hDD : ∀ i j, z j p0 = z i p0 → D j p0 = D i p0)
    (hDz : ∀ j, z j p0 = zt p0 → D j p0 = Dt p0)
    (ha : ∀ j, Tendsto (fun q : P × ℝ × ℝ => a j q.1 q.2) (l ×ˢ 𝓝 (th j p0)) (𝓝 (a j p0 (th j p0))))
    (ho : Tendsto o l (𝓝 (o p0))) (hzt : Tendsto zt l (𝓝 (zt p0))) (hDt : Tendsto Dt l (𝓝 (Dt p0))) (hne : Dt p0 ≠ 0)
    (hth : ∀ i, ∀ᶠ p in l, th i p = o p - ∑ j, (if z j p < z i p then (D i p - D j p) / D i p else 0) • a j p (th j p))
    (hth0 : ∀ i, th i p0 = o p0 - ∑ j, (if z j p0 < z i p0 then (D i p0 - D j p0) / D i p0 else 0) • a j p0 (th j p0))
    (heq : ∀ᶠ p in l, tt p = o p - ∑ j, (if z j p < zt p then (Dt p - D j p) / Dt p else 0) • a j p (th j p))
    (heq0 : tt p0 = o p0 - ∑ j, (if z j p0 < zt p0 then (Dt p0 - D j p0) / Dt p0 else 0) • a j p0 (th j p0)) :
    (∀ i, Tendsto (th i) l (𝓝 (th i p0))) ∧ Tendsto tt l (𝓝 (tt p0)) := by
  have key : ∀ U : Ultrafilter P, ↑U ≤ l → (∀ i, Tendsto (th i) U (𝓝 (th i p0))) ∧ Tendsto tt U (𝓝 (tt p0)) := by
    intro U hU
    have ha' : ∀ j, Tendsto (fun q : P × ℝ × ℝ => a j q.1 q.2) (↑U ×ˢ 𝓝 (th j p0)) (𝓝 (a j p0 (th j p0))) :=
      fun j => (ha j).mono_left (prod_mono_left _ hU)
    have wf : WellFounded fun j i : Fin n => ∀ᶠ p in U, z j p < z i p := by
      have : IsTrans (Fin n) fun j i => ∀ᶠ p in U, z j p < z i p :=
        ⟨fun _ _ _ h1 h2 => (h1.and h2).mono fun _ h => h.1.trans h.2⟩
      have : Std.Irrefl (α := Fin n) fun j i => ∀ᶠ p in U, z j p < z i p :=
        ⟨fun i h => by obtain ⟨p, hp⟩ := h.exists; exact lt_irrefl _ hp⟩
      exact Finite.wellFounded_of_trans_of_irrefl _
    have hall : ∀ i, Tendsto (th i) U (𝓝 (th i p0)) := by
      intro i
      induction i using wf.induction with
      | _ i ih =>
        exact ray_step U p0 z D a th o (z i) (D i) (th i) (fun j => (hz j).mono_left hU) (fun j => (hD j).mono_left hU)
          (hDD i) ha' (ho.mono_left hU) ((hz i).mono_left hU) ((hD i).mono_left hU) (hDne i) (hU (hth i)) (hth0 i) ih
    exact ⟨hall, ray_step U p0 z D a th o zt Dt tt (fun j => (hz j).mono_left hU) (fun j => (hD j).mono_left hU)
      hDz ha' (ho.mono_left hU) (hzt.mono_left hU) (hDt.mono_left hU) hne (hU heq) heq0 fun j _ => hall j⟩
  exact ⟨fun i => (tendsto_iff_ultrafilter _ _ _).2 fun U hU => (key U hU).1 i,
    (tendsto_iff_ultrafilter _ _ _).2 fun U hU => (key U hU).2⟩

/-- The sum of the lens equation for lenses numbered from 0. -/
theorem filter_ofFn_sum {n : ℕ} (L : Fin n → MPlane ℝ) (z : ℝ) (f : MPlane ℝ → ℝ) :
    (((List.ofFn L).filter fun l => l.z < z).map f).sum = ∑ j, if (L j).z < z then f (L j) else 0 := by
  have h : ∀ ls : List (MPlane ℝ), ((ls.filter fun l => l.z < z).map f).sum
      = (ls.map fun l => if l.z < z then f l else 0).sum := by
    intro ls
    induction ls with
    | nil => rfl
    | cons a ls ih =>
      by_cases hz : a.z < z
      · rw [List.filter_cons_of_pos (by simpa using hz), List.map_cons, List.sum_cons, ih, List.map_cons, List.sum_cons,
          if_pos hz]
      · rw [List.filter_cons_of_neg (by simpa using hz), ih, List.map_cons, List.sum_cons, if_neg hz, zero_add]
  rw [h, List.map_ofFn, List.sum_ofFn]
  rfl

/-- The lens equation as an equation between pairs. -/
theorem isRay_ofFn {n : ℕ} {dist : ℝ → ℝ} {L : Fin n → MPlane ℝ} {x y : ℝ} {beta : ℝ → ℝ × ℝ}
    (h : IsRay dist (List.ofFn L) x y beta) {z : ℝ} (hz : 0 < z) :
    beta z = (x, y) - ∑ j, (if (L j).z < z then (dist z - dist (L j).z) / dist z else 0)
      • (L j).alpha (beta (L j).z).1 (beta (L j).z).2 := by
  obtain ⟨h1, h2⟩ := h z hz
  rw [filter_ofFn_sum] at h1 h2
  ext
  · rw [h1]
    simp only [Prod.fst_sub, Prod.fst_sum, Prod.smul_fst, smul_eq_mul, ite_mul, zero_mul]
  · rw [h2]
    simp only [Prod.snd_sub, Prod.snd_sum, Prod.smul_snd, smul_eq_mul, ite_mul, zero_mul]

end Caustics

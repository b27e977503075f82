import Verif.Lemmas.StarField
import Mathlib.Analysis.Analytic.Order
import Mathlib.Analysis.Calculus.Deriv.Star
import Mathlib.Analysis.Calculus.Deriv.Inv
import Mathlib.Analysis.Complex.CauchyIntegral
import Mathlib.Analysis.Complex.Polynomial.Basic
import Mathlib.Algebra.BigOperators.Fin
import Mathlib.Data.ZMod.Basic

/-!
The number of images of a field of point masses modulo two: solutions of the polynomial equation that are not images
come in pairs of equal multiplicity.
-/

namespace Caustics

open Polynomial ComplexConjugate Filter Topology

section
variable (S : Finset ℂ) (m : ℂ → ℂ) (a g ζ : ℂ)

/-- The conjugate of an image as a function of the image. -/
noncomputable def starF (z : ℂ) : ℂ := (conj ζ + conj g * z + ∑ i ∈ S, conj (m i) / (z - i)) / conj a

/-- The image as a function of its conjugate. -/
noncomputable def starG (w : ℂ) : ℂ := (ζ + g * w + ∑ i ∈ S, m i / (w - conj i)) / a

/-- Derivative of `starF`. -/
noncomputable def starF' (z : ℂ) : ℂ := (conj g - ∑ i ∈ S, conj (m i) / (z - i) ^ 2) / conj a

end

variable {S : Finset ℂ} {m : ℂ → ℂ} {a g ζ z w : ℂ}

theorem starG_conj (w : ℂ) : starG S m a g ζ w = conj (starF S m a g ζ (conj w)) := by
  simp [starG, starF, map_sum]

theorem starF_conj (z : ℂ) : starF S m a g ζ z = conj (starG S m a g ζ (conj z)) := by
  simp [starG, starF, map_sum]

theorem starImage_iff (ha : a ≠ 0) : StarImage S m a g ζ z ↔ z ∉ S ∧ conj (starF S m a g ζ z) = z := by
  have : conj (starF S m a g ζ z) = starG S m a g ζ (conj z) := by rw [starF_conj, Complex.conj_conj]
  rw [StarImage, this, starG, div_eq_iff ha]
  refine and_congr_right fun _ => ?_
  constructor <;> intro h <;> linear_combination -h

theorem not_mem_ne (h : z ∉ S) {i : ℂ} (hi : i ∈ S) : z - i ≠ 0 := by
  rw [sub_ne_zero]
  rintro rfl
  exact h hi

theorem starF_deriv (h : z ∉ S) : HasDerivAt (starF S m a g ζ) (starF' S m a g z) z := by
  have h1 : HasDerivAt (fun z => ∑ i ∈ S, conj (m i) / (z - i)) (∑ i ∈ S, -(conj (m i) / (z - i) ^ 2)) z := by
    refine HasDerivAt.fun_sum fun i hi => ?_
    refine ((hasDerivAt_const z (conj (m i))).div ((hasDerivAt_id z).sub_const i) (not_mem_ne h hi)).congr_deriv ?_
    simp only [id]
    ring
  refine ((((hasDerivAt_id z).const_mul (conj g)).const_add (conj ζ)).add h1).div_const (conj a) |>.congr_deriv ?_
  rw [starF', Finset.sum_neg_distrib]
  ring

theorem starG_deriv (h : conj w ∉ S) : HasDerivAt (starG S m a g ζ) (conj (starF' S m a g (conj w))) w := by
  have := (starF_deriv (m := m) (a := a) (g := g) (ζ := ζ) h).conj_conj
  rw [Complex.conj_conj] at this
  have e : starG S m a g ζ = conj ∘ starF S m a g ζ ∘ conj := funext fun w => starG_conj w
  rw [e]
  exact this

theorem eventually_not_mem (h : z ∉ S) : ∀ᶠ z' in 𝓝 z, z' ∉ S :=
  (Finset.finite_toSet S).isClosed.isOpen_compl.mem_nhds h

theorem starF_analytic (h : z ∉ S) : AnalyticAt ℂ (starF S m a g ζ) z := by
  rw [Complex.analyticAt_iff_eventually_differentiableAt]
  filter_upwards [eventually_not_mem h] with z' hz' using (starF_deriv hz').differentiableAt

theorem starG_analytic (h : conj w ∉ S) : AnalyticAt ℂ (starG S m a g ζ) w := by
  rw [Complex.analyticAt_iff_eventually_differentiableAt]
  have : ∀ᶠ w' in 𝓝 w, conj w' ∉ S := Complex.continuous_conj.continuousAt.eventually (eventually_not_mem h)
  filter_upwards [this] with z' hz' using (starG_deriv hz').differentiableAt

/-- Order of vanishing and conjugation. -/
theorem order_conj {f : ℂ → ℂ} {n : ℕ} (hf : AnalyticAt ℂ f z) (h : analyticOrderAt f z = n) :
    analyticOrderAt (fun w => conj (f (conj w))) (conj z) = n := by
  have hc : ∀ u : ℂ → ℂ, AnalyticAt ℂ u z → AnalyticAt ℂ (fun w => conj (u (conj w))) (conj z) := by
    intro u hu
    rw [Complex.analyticAt_iff_eventually_differentiableAt] at hu ⊢
    rw [← Complex.conj_conj z] at hu
    filter_upwards [Complex.continuous_conj.continuousAt.eventually hu] with w hw
    have := hw.conj_conj
    rw [Complex.conj_conj] at this
    exact this
  obtain ⟨u, hu, hu0, he⟩ := hf.analyticOrderAt_eq_natCast.1 h
  refine (hc f hf).analyticOrderAt_eq_natCast.2 ⟨fun w => conj (u (conj w)), hc u hu, by simpa using hu0, ?_⟩
  rw [← Complex.conj_conj z] at he
  filter_upwards [Complex.continuous_conj.continuousAt.eventually he] with w hw
  rw [hw]
  simp

/-- Order of vanishing of a polynomial. -/
theorem order_poly {P : ℂ[X]} (hP : P ≠ 0) (z : ℂ) :
    analyticOrderAt (fun w => P.eval w) z = P.rootMultiplicity z := by
  have ha : ∀ q : ℂ[X], AnalyticAt ℂ (fun w => q.eval w) z := fun q => by
    rw [Complex.analyticAt_iff_eventually_differentiableAt]
    exact Eventually.of_forall fun w => q.differentiable.differentiableAt
  obtain ⟨q, hq, hd⟩ := exists_eq_pow_rootMultiplicity_mul_and_not_dvd P hP z
  refine (ha P).analyticOrderAt_eq_natCast.2 ⟨fun w => q.eval w, ha q, ?_, Eventually.of_forall fun w => ?_⟩
  · rwa [Ne, ← IsRoot.def, ← dvd_iff_isRoot]
  · conv_lhs => rw [hq]
    simp

/-! ### Pairs of solutions -/

/-- What vanishes at solutions of the equation and its conjugate. -/
noncomputable def starH (S : Finset ℂ) (m : ℂ → ℂ) (a g ζ z : ℂ) : ℂ := z - starG S m a g ζ (starF S m a g ζ z)

theorem starH_analytic (h : z ∉ S) (h' : conj (starF S m a g ζ z) ∉ S) : AnalyticAt ℂ (starH S m a g ζ) z :=
  analyticAt_id.sub ((starG_analytic h').comp (starF_analytic h))

theorem starH_deriv (h : z ∉ S) (h' : conj (starF S m a g ζ z) ∉ S) :
    HasDerivAt (starH S m a g ζ)
      (1 - conj (starF' S m a g (conj (starF S m a g ζ z))) * starF' S m a g z) z :=
  (hasDerivAt_id z).sub ((starG_deriv h').comp z (starF_deriv h))

theorem starF_sub {u v : ℂ} (hu : u ∉ S) (hv : v ∉ S) :
    starF S m a g ζ u - starF S m a g ζ v =
      (conj g - ∑ i ∈ S, conj (m i) / ((u - i) * (v - i))) / conj a * (u - v) := by
  have : ∑ i ∈ S, conj (m i) / (u - i) - ∑ i ∈ S, conj (m i) / (v - i) =
      -(∑ i ∈ S, conj (m i) / ((u - i) * (v - i))) * (u - v) := by
    rw [← Finset.sum_sub_distrib, neg_mul, Finset.sum_mul, ← Finset.sum_neg_distrib]
    refine Finset.sum_congr rfl fun i hi => ?_
    have h1 := not_mem_ne hu hi
    have h2 := not_mem_ne hv hi
    field_simp
    ring
  rw [starF, starF, ← sub_div, div_mul_eq_mul_div]
  congr 1
  linear_combination this

/-- A solution and its partner have the same multiplicity. -/
theorem starH_order {n : ℕ} (h : z ∉ S) (h' : conj (starF S m a g ζ z) ∉ S)
    (he : starG S m a g ζ (starF S m a g ζ z) = z) (hn : analyticOrderAt (starH S m a g ζ) (conj (starF S m a g ζ z)) = n) :
    analyticOrderAt (starH S m a g ζ) z = n := by
  have hF : starF S m a g ζ (conj (starF S m a g ζ z)) = conj z := by
    rw [starF_conj, Complex.conj_conj, he]
  have h2 : conj (starF S m a g ζ (conj (starF S m a g ζ z))) ∉ S := by rwa [hF, Complex.conj_conj]
  have hH := starH_analytic (S := S) (m := m) (a := a) (g := g) (ζ := ζ) h h'
  have hH' := starH_analytic (S := S) (m := m) (a := a) (g := g) (ζ := ζ) h' h2
  have z1 : starH S m a g ζ z = 0 := by rw [starH, he, sub_self]
  have z2 : starH S m a g ζ (conj (starF S m a g ζ z)) = 0 := by
    rw [starH, hF, starG_conj, Complex.conj_conj, sub_self]
  by_cases h0 : starF' S m a g z = 0
  · have d1 := starH_deriv (S := S) (m := m) (a := a) (g := g) (ζ := ζ) h h'
    have d2 := starH_deriv (S := S) (m := m) (a := a) (g := g) (ζ := ζ) h' h2
    rw [h0, mul_zero, sub_zero] at d1
    rw [hF, Complex.conj_conj, h0, map_zero, zero_mul, sub_zero] at d2
    have o1 := hH.analyticOrderAt_eq_one_of_zero_deriv_ne_zero z1 (by rw [d1.deriv]; exact one_ne_zero)
    have o2 := hH'.analyticOrderAt_eq_one_of_zero_deriv_ne_zero z2 (by rw [d2.deriv]; exact one_ne_zero)
    rw [o1, ← hn, o2]
  · have k := order_conj hH' hn
    rw [Complex.conj_conj] at k
    rw [← analyticOrderAt_comp_of_deriv_ne_zero (starF_analytic h) (by rw [(starF_deriv h).deriv]; exact h0)] at k
    let U : ℂ → ℂ := fun u => (conj g - ∑ i ∈ S, conj (m i) / ((u - i) *
      (starG S m a g ζ (starF S m a g ζ u) - i))) / conj a
    have hGF : AnalyticAt ℂ (fun u => starG S m a g ζ (starF S m a g ζ u)) z :=
      (starG_analytic h').comp (starF_analytic h)
    have hU : AnalyticAt ℂ U z := by
      refine AnalyticAt.div_const (analyticAt_const.sub (Finset.analyticAt_fun_sum _ fun i hi => ?_))
      refine analyticAt_const.div ((analyticAt_id.sub analyticAt_const).mul (hGF.sub analyticAt_const)) ?_
      rw [he]
      exact mul_ne_zero (not_mem_ne h hi) (not_mem_ne h hi)
    have hU0 : U z ≠ 0 := by
      have : U z = starF' S m a g z := by
        simp only [U, he, starF']
        congr 2
        exact Finset.sum_congr rfl fun i _ => by rw [sq]
      rwa [this]
    have hGFn : ∀ᶠ u in 𝓝 z, starG S m a g ζ (starF S m a g ζ u) ∉ S :=
      hGF.continuousAt.eventually (eventually_not_mem (by simpa only [he] using h))
    have e : ((fun w => conj (starH S m a g ζ (conj w))) ∘ starF S m a g ζ) =ᶠ[𝓝 z] U * starH S m a g ζ := by
      filter_upwards [eventually_not_mem h, hGFn] with u hu hu'
      have e1 : conj (starH S m a g ζ (conj (starF S m a g ζ u))) =
          starF S m a g ζ u - starF S m a g ζ (starG S m a g ζ (starF S m a g ζ u)) := by
        rw [starH, map_sub, Complex.conj_conj, starG_conj, Complex.conj_conj, starG_conj (starF S m a g ζ u)]
      simp only [Function.comp, Pi.mul_apply]
      rw [e1, starF_sub hu hu', starH]
    rw [analyticOrderAt_congr e, analyticOrderAt_mul hU hH, hU.analyticOrderAt_eq_zero.2 hU0, zero_add] at k
    exact k

/-- A polynomial whose roots are the solutions: the number of images is congruent to its degree modulo two, when no
image is degenerate. -/
theorem star_parity {P : ℂ[X]} (hP : P ≠ 0) (ha : a ≠ 0)
    (hroot : ∀ z, P.IsRoot z → z ∉ S ∧ conj (starF S m a g ζ z) ∉ S)
    (hfac : ∀ z, z ∉ S → conj (starF S m a g ζ z) ∉ S → ∃ U : ℂ → ℂ, AnalyticAt ℂ U z ∧ U z ≠ 0 ∧
      ∀ᶠ u in 𝓝 z, P.eval u = U u * starH S m a g ζ u)
    (hreg : ∀ z, StarImage S m a g ζ z → ‖starF' S m a g z‖ ≠ 1) :
    {z | StarImage S m a g ζ z}.Finite ∧
      ({z | StarImage S m a g ζ z}.ncard : ZMod 2) = P.natDegree := by
  classical
  have hord : ∀ z, z ∉ S → conj (starF S m a g ζ z) ∉ S →
      analyticOrderAt (starH S m a g ζ) z = P.rootMultiplicity z := by
    intro z h1 h2
    obtain ⟨U, hU, hU0, hev⟩ := hfac z h1 h2
    have e : (fun u => P.eval u) =ᶠ[𝓝 z] U * starH S m a g ζ := hev
    have := order_poly hP z
    rw [analyticOrderAt_congr e, analyticOrderAt_mul hU (starH_analytic h1 h2), hU.analyticOrderAt_eq_zero.2 hU0,
      zero_add] at this
    exact this
  have hiff : ∀ z, P.IsRoot z ↔ z ∉ S ∧ conj (starF S m a g ζ z) ∉ S ∧
      starG S m a g ζ (starF S m a g ζ z) = z := by
    intro z
    constructor
    · intro h
      obtain ⟨h1, h2⟩ := hroot z h
      obtain ⟨U, -, hU0, hev⟩ := hfac z h1 h2
      have := hev.self_of_nhds
      rw [h.eq_zero] at this
      have h3 := (mul_eq_zero.1 this.symm).resolve_left hU0
      exact ⟨h1, h2, (sub_eq_zero.1 h3).symm⟩
    · rintro ⟨h1, h2, h3⟩
      obtain ⟨U, -, -, hev⟩ := hfac z h1 h2
      rw [IsRoot, hev.self_of_nhds, starH, h3, sub_self, mul_zero]
  let T : ℂ → ℂ := fun z => conj (starF S m a g ζ z)
  have hTT : ∀ z, P.IsRoot z → T (T z) = z := by
    intro z hz
    have := ((hiff z).1 hz).2.2
    rw [starG_conj] at this
    exact this
  have hT : ∀ z, P.IsRoot z → P.IsRoot (T z) := by
    intro z hz
    obtain ⟨h1, h2, h3⟩ := (hiff z).1 hz
    have h4 := hTT z hz
    refine (hiff _).2 ⟨h2, ?_, ?_⟩
    · change T (T z) ∉ S
      rwa [h4]
    · rw [starG_conj]
      change T (T (T z)) = T z
      rw [h4]
  have hmult : ∀ z, P.IsRoot z → P.rootMultiplicity (T z) = P.rootMultiplicity z := by
    intro z hz
    obtain ⟨h1, h2, h3⟩ := (hiff z).1 hz
    obtain ⟨h4, h5, -⟩ := (hiff _).1 (hT z hz)
    have := starH_order h1 h2 h3 (hord _ h4 h5)
    rw [hord z h1 h2] at this
    exact_mod_cast this.symm
  have himg : ∀ z, StarImage S m a g ζ z ↔ P.IsRoot z ∧ T z = z := by
    intro z
    rw [starImage_iff ha]
    constructor
    · rintro ⟨h1, h2⟩
      refine ⟨(hiff z).2 ⟨h1, by rwa [h2], ?_⟩, h2⟩
      have h3 : starF S m a g ζ z = conj z := by rw [← h2, Complex.conj_conj, h2]
      rw [starG_conj, h3, Complex.conj_conj, h2]
    · rintro ⟨h1, h2⟩
      exact ⟨((hiff z).1 h1).1, h2⟩
  have hone : ∀ z, StarImage S m a g ζ z → P.rootMultiplicity z = 1 := by
    intro z hz
    obtain ⟨hr, ht⟩ := (himg z).1 hz
    obtain ⟨h1, h2, h3⟩ := (hiff z).1 hr
    have d := starH_deriv (S := S) (m := m) (a := a) (g := g) (ζ := ζ) h1 h2
    change conj (starF S m a g ζ z) = z at ht
    rw [ht, ← Complex.normSq_eq_conj_mul_self] at d
    have o := (starH_analytic h1 h2).analyticOrderAt_eq_one_of_zero_deriv_ne_zero (by rw [starH, h3, sub_self]) (by
      rw [d.deriv, sub_ne_zero]
      intro h
      have h4 : Complex.normSq (starF' S m a g z) = 1 := by exact_mod_cast h.symm
      rw [Complex.normSq_eq_norm_sq] at h4
      exact hreg z hz ((pow_eq_one_iff_of_nonneg (norm_nonneg _) two_ne_zero).1 h4))
    rw [hord z h1 h2] at o
    exact_mod_cast o
  have hset : {z | StarImage S m a g ζ z} = ((P.roots.toFinset.filter fun z => T z = z : Finset ℂ) : Set ℂ) := by
    ext z
    simp [himg, hP]
  refine ⟨hset ▸ Finset.finite_toSet _, ?_⟩
  rw [hset, Set.ncard_coe_finset]
  have hcard : P.natDegree = ∑ z ∈ P.roots.toFinset, P.rootMultiplicity z := by
    rw [← splits_iff_card_roots.1 (IsAlgClosed.splits P), ← Multiset.toFinset_sum_count_eq]
    exact Finset.sum_congr rfl fun z _ => count_roots P
  rw [hcard, ← Finset.sum_filter_add_sum_filter_not _ (fun z => T z = z)]
  push_cast
  have e1 : ∑ z ∈ P.roots.toFinset.filter (fun z => T z = z), (P.rootMultiplicity z : ZMod 2) =
      ((P.roots.toFinset.filter fun z => T z = z).card : ZMod 2) := by
    rw [Finset.sum_congr rfl (g := fun _ => (1 : ZMod 2))]
    · simp
    · intro z hz
      rw [Finset.mem_filter, Multiset.mem_toFinset, mem_roots hP] at hz
      rw [hone z ((himg z).2 hz), Nat.cast_one]
  have e2 : ∑ z ∈ P.roots.toFinset.filter (fun z => ¬ T z = z), (P.rootMultiplicity z : ZMod 2) = 0 := by
    refine Finset.sum_involution (fun z _ => T z) ?_ ?_ ?_ ?_
    · intro z hz
      rw [Finset.mem_filter, Multiset.mem_toFinset, mem_roots hP] at hz
      rw [hmult z hz.1]
      exact CharTwo.add_self_eq_zero _
    · intro z hz _
      exact (Finset.mem_filter.1 hz).2
    · intro z hz
      rw [Finset.mem_filter, Multiset.mem_toFinset, mem_roots hP] at hz ⊢
      refine ⟨hT z hz.1, fun h => hz.2 ?_⟩
      rw [hTT z hz.1] at h
      exact h.symm
    · intro z hz
      rw [Finset.mem_filter, Multiset.mem_toFinset, mem_roots hP] at hz
      exact hTT z hz.1
  rw [e1, e2, add_zero]

/-! ### The two polynomials -/

theorem starA_eval (ha : a ≠ 0) (h : z ∉ S) :
    (starA S m g ζ).eval z = (starQ S).eval z * (conj a * starF S m a g ζ z) := by
  have hs : ∑ i ∈ S, conj (m i) * (starQ (S.erase i)).eval z =
      (starQ S).eval z * ∑ i ∈ S, conj (m i) / (z - i) := by
    rw [Finset.mul_sum]
    refine Finset.sum_congr rfl fun i hi => ?_
    have hne := not_mem_ne h hi
    rw [← starQ_erase z hi]
    field_simp
  have hca : conj a ≠ 0 := by simpa using ha
  rw [starA, eval_add, eval_mul, eval_add, eval_C, eval_mul, eval_C, eval_X, eval_finsetSum]
  simp only [eval_mul, eval_C]
  rw [hs, starF, mul_div_cancel₀ _ hca]
  ring

theorem starR_eval (ha : a ≠ 0) (h : z ∉ S) (i : ℂ) :
    (starR S m a g ζ i).eval z = (starQ S).eval z * conj a * (starF S m a g ζ z - conj i) := by
  rw [starR, eval_sub, starA_eval ha h, eval_mul, eval_C]
  ring

theorem starR_eval_ne (ha : a ≠ 0) (h : z ∉ S) (h' : conj (starF S m a g ζ z) ∉ S) {i : ℂ} (hi : i ∈ S) :
    (starR S m a g ζ i).eval z ≠ 0 := by
  rw [starR_eval ha h]
  refine mul_ne_zero (mul_ne_zero (starQ_ne h) (by simpa using ha)) ?_
  rw [sub_ne_zero]
  intro he
  rw [he, Complex.conj_conj] at h'
  exact h' hi

theorem star_sum_eval (ha : a ≠ 0) (h : z ∉ S) (h' : conj (starF S m a g ζ z) ∉ S) :
    ∑ i ∈ S, m i * conj a ^ 2 * (starQ S).eval z * ∏ j ∈ S.erase i, (starR S m a g ζ j).eval z =
      conj a * (∏ i ∈ S, (starR S m a g ζ i).eval z) * ∑ i ∈ S, m i / (starF S m a g ζ z - conj i) := by
  rw [Finset.mul_sum]
  refine Finset.sum_congr rfl fun i hi => ?_
  have hne := starR_eval_ne ha h h' hi
  rw [← Finset.mul_prod_erase S _ hi]
  rw [starR_eval ha h] at hne ⊢
  have h3 : starF S m a g ζ z - conj i ≠ 0 := right_ne_zero_of_mul hne
  field_simp

theorem starP_eval (ha : a ≠ 0) (h : z ∉ S) (h' : conj (starF S m a g ζ z) ∉ S) :
    (starP S m a g ζ).eval z =
      (starQ S).eval z * conj a * a * (∏ i ∈ S, (starR S m a g ζ i).eval z) * starH S m a g ζ z := by
  rw [starP]
  simp only [eval_sub, eval_mul, eval_C, eval_X, eval_prod, eval_finsetSum, eval_pow]
  have hs : ∑ i ∈ S, m i * conj a ^ 2 * (starQ S).eval z ^ 2 * ∏ j ∈ S.erase i, (starR S m a g ζ j).eval z =
      (starQ S).eval z * (conj a * (∏ i ∈ S, (starR S m a g ζ i).eval z) *
        ∑ i ∈ S, m i / (starF S m a g ζ z - conj i)) := by
    rw [← star_sum_eval ha h h', Finset.mul_sum]
    exact Finset.sum_congr rfl fun i _ => by ring
  have hG : a * starG S m a g ζ (starF S m a g ζ z) =
      ζ + g * starF S m a g ζ z + ∑ i ∈ S, m i / (starF S m a g ζ z - conj i) := by
    rw [starG, mul_div_cancel₀ _ ha]
  rw [hs, starA_eval ha h, starH]
  linear_combination (starQ S).eval z * conj a * (∏ i ∈ S, (starR S m a g ζ i).eval z) * hG

theorem starP0_eval (ha : a ≠ 0) (h : z ∉ S) (h' : conj (starF S m a 0 ζ z) ∉ S) :
    (starP0 S m a ζ).eval z =
      conj a * a * (∏ i ∈ S, (starR S m a 0 ζ i).eval z) * starH S m a 0 ζ z := by
  rw [starP0]
  simp only [eval_sub, eval_mul, eval_C, eval_X, eval_prod, eval_finsetSum]
  have hG : a * starG S m a 0 ζ (starF S m a 0 ζ z) =
      ζ + ∑ i ∈ S, m i / (starF S m a 0 ζ z - conj i) := by
    rw [starG, mul_div_cancel₀ _ ha, zero_mul, add_zero]
  rw [star_sum_eval ha h h', starH]
  linear_combination conj a * (∏ i ∈ S, (starR S m a 0 ζ i).eval z) * hG

/-- Where the conjugate would fall on a star. -/
theorem star_hit (ha : a ≠ 0) (hm : ∀ i ∈ S, m i ≠ 0) (h : z ∉ S) (h' : conj (starF S m a g ζ z) ∈ S) :
    (∏ i ∈ S, (starR S m a g ζ i).eval z) = 0 ∧
    ∑ i ∈ S, m i * conj a ^ 2 * (starQ S).eval z * ∏ j ∈ S.erase i, (starR S m a g ζ j).eval z ≠ 0 := by
  set k := conj (starF S m a g ζ z) with hk
  have hF : starF S m a g ζ z = conj k := by rw [hk, Complex.conj_conj]
  have hR : ∀ i, (starR S m a g ζ i).eval z = (starQ S).eval z * conj a * (conj k - conj i) := fun i => by
    rw [starR_eval ha h, hF]
  have hca : conj a ≠ 0 := by simpa using ha
  have h0 : (starR S m a g ζ k).eval z = 0 := by rw [hR, sub_self, mul_zero]
  refine ⟨Finset.prod_eq_zero h' h0, ?_⟩
  rw [Finset.sum_eq_single_of_mem k h']
  · refine mul_ne_zero (mul_ne_zero (mul_ne_zero (hm k h') (pow_ne_zero _ hca)) (starQ_ne h)) ?_
    refine Finset.prod_ne_zero_iff.2 fun j hj => ?_
    rw [hR]
    refine mul_ne_zero (mul_ne_zero (starQ_ne h) hca) ?_
    rw [sub_ne_zero]
    exact fun e => (Finset.mem_erase.1 hj).1 ((starRingEnd ℂ).injective e).symm
  · intro j _ hj
    rw [Finset.prod_eq_zero (Finset.mem_erase.2 ⟨hj.symm, h'⟩) h0, mul_zero]

theorem starP_root (ha : a ≠ 0) (hg : g ≠ 0) (hm : ∀ i ∈ S, m i ≠ 0) (hz : (starP S m a g ζ).IsRoot z) :
    z ∉ S ∧ conj (starF S m a g ζ z) ∉ S := by
  have h1 : z ∉ S := by
    intro h
    rw [IsRoot, starP] at hz
    simp only [eval_sub, eval_mul, eval_C, eval_X, eval_prod, eval_finsetSum, eval_pow, starQ_zero h,
      starR_star h] at hz
    simp [starA_star_ne h (hm z h), hg, Finset.prod_const] at hz
  refine ⟨h1, fun h' => ?_⟩
  obtain ⟨e1, e2⟩ := star_hit (g := g) (ζ := ζ) ha hm h1 h'
  rw [IsRoot, starP] at hz
  simp only [eval_sub, eval_mul, eval_C, eval_X, eval_prod, eval_finsetSum, eval_pow] at hz
  rw [e1, mul_zero, zero_sub, neg_eq_zero] at hz
  refine mul_ne_zero (starQ_ne h1) e2 ?_
  rw [← hz, Finset.mul_sum]
  exact Finset.sum_congr rfl fun i _ => by ring

theorem starP0_root (ha : a ≠ 0) (hm : ∀ i ∈ S, m i ≠ 0) (hζ : ∀ i ∈ S, a * i ≠ ζ)
    (hz : (starP0 S m a ζ).IsRoot z) : z ∉ S ∧ conj (starF S m a 0 ζ z) ∉ S := by
  have h1 : z ∉ S := by
    intro h
    rw [IsRoot, starP0] at hz
    simp only [eval_sub, eval_mul, eval_C, eval_X, eval_prod, eval_finsetSum, starQ_zero h, starR_star h] at hz
    simp [starA_star_ne h (hm z h), ha, Finset.prod_const, sub_eq_zero, hζ z h] at hz
  refine ⟨h1, fun h' => ?_⟩
  obtain ⟨e1, e2⟩ := star_hit (g := 0) (ζ := ζ) ha hm h1 h'
  rw [IsRoot, starP0] at hz
  simp only [eval_sub, eval_mul, eval_C, eval_X, eval_prod, eval_finsetSum] at hz
  rw [e1, mul_zero, zero_sub, neg_eq_zero] at hz
  exact e2 hz

/-! ### Degrees -/

theorem starQ_coeff (S : Finset ℂ) : (starQ S).coeff S.card = 1 := by
  have := coeff_prod_of_natDegree_le (s := S) (fun i => X - C i) 1 (fun i _ => (natDegree_X_sub_C_le i))
  rw [mul_one] at this
  rw [starQ, this]
  simp [coeff_X_one]

theorem starA_coeff (S : Finset ℂ) (m : ℂ → ℂ) (g ζ : ℂ) : (starA S m g ζ).coeff (S.card + 1) = conj g := by
  have h2 : (∑ i ∈ S, C (conj (m i)) * starQ (S.erase i)).coeff (S.card + 1) = 0 := by
    rw [finsetSum_coeff]
    refine Finset.sum_eq_zero fun i hi => coeff_eq_zero_of_natDegree_lt ?_
    have := (natDegree_C_mul_le (conj (m i)) (starQ (S.erase i))).trans (starQ_erase_deg hi)
    omega
  rw [starA, coeff_add, h2, add_zero, add_comm S.card 1, coeff_mul_add_eq_of_natDegree_le (lin_deg _ _) (starQ_deg S),
    starQ_coeff]
  simp [coeff_C]

theorem starA0_coeff (S : Finset ℂ) (m : ℂ → ℂ) (ζ : ℂ) : (starA S m 0 ζ).coeff S.card = conj ζ := by
  have h2 : (∑ i ∈ S, C (conj (m i)) * starQ (S.erase i)).coeff S.card = 0 := by
    rw [finsetSum_coeff]
    refine Finset.sum_eq_zero fun i hi => coeff_eq_zero_of_natDegree_lt ?_
    have := (natDegree_C_mul_le (conj (m i)) (starQ (S.erase i))).trans (starQ_erase_deg hi)
    have hc : 1 ≤ S.card := Finset.card_pos.2 ⟨i, hi⟩
    omega
  rw [starA, coeff_add, h2, add_zero]
  simp [starQ_coeff]

theorem star_prod_coeff : (∏ i ∈ S, starR S m a g ζ i).coeff (S.card * (S.card + 1)) = conj g ^ S.card := by
  have hQ := starQ_deg S
  rw [coeff_prod_of_natDegree_le _ _ _ fun i _ => starR_deg (lin_deg (conj ζ) (conj g)) i,
    Finset.prod_congr rfl (g := fun _ => conj g)]
  · simp
  · intro i _
    rw [starR, coeff_sub, starA_coeff, coeff_C_mul, coeff_eq_zero_of_natDegree_lt (show (starQ S).natDegree < _ by omega)]
    simp

theorem starP_coeff : (starP S m a g ζ).coeff ((S.card + 1) ^ 2) = (a * conj a - g * conj g) * conj g ^ S.card := by
  have hd := lin_deg (conj ζ) (conj g)
  have hQ := starQ_deg S
  have h2 : (∑ i ∈ S, C (m i * conj a ^ 2) * starQ S ^ 2 * ∏ j ∈ S.erase i, starR S m a g ζ j).coeff
      ((S.card + 1) ^ 2) = 0 := by
    rw [finsetSum_coeff]
    refine Finset.sum_eq_zero fun i hi => coeff_eq_zero_of_natDegree_lt ?_
    refine natDegree_mul_le.trans_lt ?_
    have h1 : (C (m i * conj a ^ 2) * starQ S ^ 2).natDegree ≤ 2 * S.card := by
      refine (natDegree_C_mul_le _ _).trans (natDegree_pow_le.trans ?_)
      omega
    have h2 := star_prod_deg (S := S) (m := m) (a := a) hd (S.erase i)
    rw [Finset.card_erase_of_mem hi] at h2
    have hc : 1 ≤ S.card := Finset.card_pos.2 ⟨i, hi⟩
    obtain ⟨n, hn⟩ := Nat.exists_eq_add_of_le hc
    rw [hn] at h1 h2 ⊢
    simp only [Nat.add_sub_cancel_left] at h2
    nlinarith
  have hX : (C (conj a) * (C a * X - C ζ) : ℂ[X]).natDegree ≤ 1 := by compute_degree
  have h1 : (C (conj a) * (C a * X - C ζ) * starQ S - C g * starA S m g ζ).natDegree ≤ S.card + 1 := by
    refine (natDegree_sub_le_of_le (m := S.card + 1) (n := S.card + 1) ?_ ?_).trans (by simp)
    · refine natDegree_mul_le.trans ?_
      omega
    · exact (natDegree_C_mul_le _ _).trans (starA_deg hd)
  have c1 : (C (conj a) * (C a * X - C ζ) * starQ S - C g * starA S m g ζ).coeff (S.card + 1) =
      a * conj a - g * conj g := by
    rw [coeff_sub, coeff_C_mul, starA_coeff, add_comm S.card 1, coeff_mul_add_eq_of_natDegree_le hX hQ, starQ_coeff]
    simp [coeff_C]
    ring
  rw [starP, coeff_sub, h2, sub_zero, show (S.card + 1) ^ 2 = (S.card + 1) + S.card * (S.card + 1) by ring,
    coeff_mul_add_eq_of_natDegree_le h1 (star_prod_deg hd S), c1, star_prod_coeff]

theorem starP_natDegree (hg : g ≠ 0) (hdet : a * conj a ≠ g * conj g) :
    (starP S m a g ζ).natDegree = (S.card + 1) ^ 2 := by
  refine le_antisymm starP_deg (le_natDegree_of_ne_zero ?_)
  rw [starP_coeff]
  exact mul_ne_zero (sub_ne_zero.2 hdet) (pow_ne_zero _ (by simpa using hg))

theorem star_prod0_coeff :
    (∏ i ∈ S, starR S m a 0 ζ i).coeff (S.card * (S.card + 0)) = ∏ i ∈ S, (conj ζ - conj a * conj i) := by
  have hd : (C (conj ζ) + C (conj (0 : ℂ)) * X : ℂ[X]).natDegree ≤ 0 := by simp
  rw [coeff_prod_of_natDegree_le _ _ _ fun i _ => starR_deg hd i]
  refine Finset.prod_congr rfl fun i _ => ?_
  rw [add_zero, starR, coeff_sub, starA0_coeff, coeff_C_mul, starQ_coeff, mul_one]

theorem starP0_coeff : (starP0 S m a ζ).coeff (S.card ^ 2 + 1) =
    a * conj a * ∏ i ∈ S, (conj ζ - conj a * conj i) := by
  have hd : (C (conj ζ) + C (conj (0 : ℂ)) * X : ℂ[X]).natDegree ≤ 0 := by simp
  have hQ := starQ_deg S
  have h2 : (∑ i ∈ S, C (m i * conj a ^ 2) * starQ S * ∏ j ∈ S.erase i, starR S m a 0 ζ j).coeff
      (S.card ^ 2 + 1) = 0 := by
    rw [finsetSum_coeff]
    refine Finset.sum_eq_zero fun i hi => coeff_eq_zero_of_natDegree_lt ?_
    refine natDegree_mul_le.trans_lt ?_
    have h1 : (C (m i * conj a ^ 2) * starQ S).natDegree ≤ S.card := (natDegree_C_mul_le _ _).trans hQ
    have h2 := star_prod_deg (S := S) (m := m) (a := a) hd (S.erase i)
    rw [Finset.card_erase_of_mem hi] at h2
    have hc : 1 ≤ S.card := Finset.card_pos.2 ⟨i, hi⟩
    obtain ⟨n, hn⟩ := Nat.exists_eq_add_of_le hc
    rw [hn] at h1 h2 ⊢
    simp only [Nat.add_sub_cancel_left] at h2
    nlinarith
  have hX : (C (conj a) * (C a * X - C ζ) : ℂ[X]).natDegree ≤ 1 := by compute_degree
  rw [starP0, coeff_sub, h2, sub_zero, show S.card ^ 2 + 1 = 1 + S.card * (S.card + 0) by ring,
    coeff_mul_add_eq_of_natDegree_le hX (star_prod_deg hd S), star_prod0_coeff]
  have hc : (C (conj a) * (C a * X - C ζ) : ℂ[X]).coeff 1 = a * conj a := by
    simp [coeff_C]
    ring
  rw [hc]

theorem starP0_natDegree (ha : a ≠ 0) (hζ : ∀ i ∈ S, a * i ≠ ζ) :
    (starP0 S m a ζ).natDegree = S.card ^ 2 + 1 := by
  refine le_antisymm starP0_deg (le_natDegree_of_ne_zero ?_)
  rw [starP0_coeff]
  refine mul_ne_zero (mul_ne_zero ha (by simpa using ha)) (Finset.prod_ne_zero_iff.2 fun i hi => ?_)
  rw [sub_ne_zero, ← map_mul]
  exact fun h => hζ i hi ((starRingEnd ℂ).injective h).symm

/-! ### Parity of the number of images -/

theorem nat_cast_two {n k : ℕ} (h : (n : ZMod 2) = (k : ZMod 2)) : n % 2 = k % 2 :=
  (ZMod.natCast_eq_natCast_iff n k 2).1 h

theorem star_sheared_parity (ha : a ≠ 0) (hg : g ≠ 0) (hdet : a * conj a ≠ g * conj g) (hm : ∀ i ∈ S, m i ≠ 0)
    (hreg : ∀ z, StarImage S m a g ζ z → ‖starF' S m a g z‖ ≠ 1) :
    {z | StarImage S m a g ζ z}.ncard % 2 = (S.card + 1) % 2 := by
  have hn := starP_natDegree (S := S) (m := m) (ζ := ζ) hg hdet
  have hP : starP S m a g ζ ≠ 0 := by
    intro h
    rw [h, natDegree_zero] at hn
    have : 0 < (S.card + 1) ^ 2 := by positivity
    omega
  have := (star_parity hP ha (fun z => starP_root ha hg hm) (fun z h h' => ?_) hreg).2
  · rw [hn] at this
    have h2 := nat_cast_two this
    rw [h2, Nat.pow_mod]
    rcases Nat.mod_two_eq_zero_or_one (S.card + 1) with h | h <;> rw [h]
  · refine ⟨fun u => (starQ S).eval u * conj a * a * (∏ i ∈ S, (starR S m a g ζ i).eval u), ?_, ?_, ?_⟩
    · rw [Complex.analyticAt_iff_eventually_differentiableAt]
      refine Eventually.of_forall fun w => ?_
      have : (fun u => (starQ S).eval u * conj a * a * (∏ i ∈ S, (starR S m a g ζ i).eval u)) =
          fun u => (starQ S * C (conj a) * C a * ∏ i ∈ S, starR S m a g ζ i).eval u := by
        funext u
        simp [eval_prod]
      rw [this]
      exact (Polynomial.differentiable _).differentiableAt
    · refine mul_ne_zero (mul_ne_zero (mul_ne_zero (starQ_ne h) (by simpa using ha)) ha)
        (Finset.prod_ne_zero_iff.2 fun i hi => starR_eval_ne ha h h' hi)
    · have hc : ∀ᶠ u in 𝓝 z, conj (starF S m a g ζ u) ∉ S :=
        (Complex.continuous_conj.continuousAt.comp (starF_analytic h).continuousAt).eventually (eventually_not_mem h')
      filter_upwards [eventually_not_mem h, hc] with u hu hu' using starP_eval ha hu hu'

theorem star_unsheared_parity (ha : a ≠ 0) (hm : ∀ i ∈ S, m i ≠ 0) (hζ : ∀ i ∈ S, a * i ≠ ζ)
    (hreg : ∀ z, StarImage S m a 0 ζ z → ‖starF' S m a 0 z‖ ≠ 1) :
    {z | StarImage S m a 0 ζ z}.ncard % 2 = (S.card + 1) % 2 := by
  have hn := starP0_natDegree (S := S) (m := m) ha hζ
  have hP : starP0 S m a ζ ≠ 0 := by
    intro h
    rw [h, natDegree_zero] at hn
    omega
  have := (star_parity hP ha (fun z => starP0_root ha hm hζ) (fun z h h' => ?_) hreg).2
  · rw [hn] at this
    have h2 := nat_cast_two this
    rw [h2, Nat.add_mod, Nat.pow_mod, Nat.add_mod S.card 1]
    rcases Nat.mod_two_eq_zero_or_one S.card with h | h <;> rw [h]
  · refine ⟨fun u => conj a * a * (∏ i ∈ S, (starR S m a 0 ζ i).eval u), ?_, ?_, ?_⟩
    · rw [Complex.analyticAt_iff_eventually_differentiableAt]
      refine Eventually.of_forall fun w => ?_
      have : (fun u => conj a * a * (∏ i ∈ S, (starR S m a 0 ζ i).eval u)) =
          fun u => (C (conj a) * C a * ∏ i ∈ S, starR S m a 0 ζ i).eval u := by
        funext u
        simp [eval_prod]
      rw [this]
      exact (Polynomial.differentiable _).differentiableAt
    · refine mul_ne_zero (mul_ne_zero (by simpa using ha) ha)
        (Finset.prod_ne_zero_iff.2 fun i hi => starR_eval_ne ha h h' hi)
    · have hc : ∀ᶠ u in 𝓝 z, conj (starF S m a 0 ζ u) ∉ S :=
        (Complex.continuous_conj.continuousAt.comp (starF_analytic h).continuousAt).eventually (eventually_not_mem h')
      filter_upwards [eventually_not_mem h, hc] with u hu hu' using starP0_eval ha hu hu'

end Caustics

import Verif.Props.StarField
import Verif.Lemmas.QuadCount

/-!
C132: an isothermal sphere with external shear makes at most four images.
-/

namespace Caustics

open ComplexConjugate FieldLens

/-- `SIS` with `s = 0` as Python evaluates it. -/
noncomputable def sisThinO (z x0 y0 Rein : ℝ) : ThinLensO ℝ :=
  ⟨z, sisDeflectionOpt x0 y0 Rein 0, fun x y => some (sisPotential x0 y0 Rein 0 x y)⟩

/-- The positions that `raytrace` maps to `b` when an SIS stands in a `SinglePlane` between `pre` and `post`. -/
def sisFieldImages (z x0 y0 Rein : ℝ) (pre post : List FieldLens) (b : ℝ × ℝ) : Set (ℝ × ℝ) :=
  {p | raytraceOpt (singlePlaneO z (pre.map (thin z) ++ sisThinO z x0 y0 Rein :: post.map (thin z))).reduced p.1 p.2 =
    some b}

/-- Only sheets and shears. -/
def Smooth (l : List FieldLens) : Prop := ∀ m ∈ l, m.place = none

theorem sis_defl_complex {z x0 y0 R : ℝ} {p : ℝ × ℝ} (h : p ≠ (x0, y0)) :
    (sisThinO z x0 y0 R).reduced p.1 p.2 =
      some ((((R / ‖(⟨p.1 - x0, p.2 - y0⟩ : ℂ)‖ : ℝ) : ℂ) * ⟨p.1 - x0, p.2 - y0⟩).re,
        (((R / ‖(⟨p.1 - x0, p.2 - y0⟩ : ℂ)‖ : ℝ) : ℂ) * ⟨p.1 - x0, p.2 - y0⟩).im) := by
  have hne : ((p.1 - x0, p.2 - y0) : ℝ × ℝ) ≠ 0 := by
    intro h0
    refine h (Prod.ext ?_ ?_)
    · have := congrArg Prod.fst h0
      simp only [Prod.fst_zero] at this
      linarith
    · have := congrArg Prod.snd h0
      simp only [Prod.snd_zero] at this
      linarith
  have hr := quad_radius hne
  simp only at hr
  have hn : ‖(⟨p.1 - x0, p.2 - y0⟩ : ℂ)‖ = √((p.1 - x0) ^ 2 + (p.2 - y0) ^ 2) := by
    rw [Complex.norm_def, Complex.normSq_apply]
    ring_nf
  simp only [sisThinO]
  rw [sisDeflectionOpt_eq (by rw [add_zero]; exact hr.ne'), hn]
  simp only [sisDeflection, translateRotate, add_zero, Complex.re_ofReal_mul, Complex.im_ofReal_mul]
  refine congrArg some (Prod.ext ?_ ?_) <;> simp only <;> ring

theorem sis_pole (z x0 y0 R : ℝ) : (sisThinO z x0 y0 R).reduced x0 y0 = none := by
  simp [sisThinO, sisDeflectionOpt, translateRotate, sqrtOpt, divOpt]

theorem smooth_gather {l : List FieldLens} (hl : Smooth l) (w : ℂ) :
    (l.map fun m => m.cdefl w).sum =
      (kappaSum l : ℂ) * w + (⟨(gammaSum l).1, (gammaSum l).2⟩ : ℂ) * conj w - smoothConst l := by
  have := star_gather l ∅ (fun m hm c hc => by rw [hl m hm] at hc; simp at hc) w
  rwa [Finset.sum_empty, add_zero] at this

/-- The constant of the lens equation about the centre of the sphere. -/
noncomputable def sisFieldConst (x0 y0 : ℝ) (l : List FieldLens) (b : ℝ × ℝ) : ℂ :=
  ⟨b.1, b.2⟩ - smoothConst l - ((1 - kappaSum l : ℝ) : ℂ) * ⟨x0, y0⟩ +
    (⟨(gammaSum l).1, (gammaSum l).2⟩ : ℂ) * conj (⟨x0, y0⟩ : ℂ)

theorem sis_field_image {z x0 y0 R : ℝ} {pre post : List FieldLens} (h1 : Smooth pre) (h2 : Smooth post)
    (p b : ℝ × ℝ) :
    p ∈ sisFieldImages z x0 y0 R pre post b ↔
      ShearImage (1 - kappaSum (pre ++ post)) R ⟨(gammaSum (pre ++ post)).1, (gammaSum (pre ++ post)).2⟩
        (sisFieldConst x0 y0 (pre ++ post) b) ⟨p.1 - x0, p.2 - y0⟩ := by
  have hs : Smooth (pre ++ post) := fun m hm => (List.mem_append.1 hm).elim (h1 m) (h2 m)
  have hpole : ∀ l : List FieldLens, Smooth l → ∀ m ∈ l, m.place ≠ some p := fun l hl m hm => by
    rw [hl m hm]
    simp
  rw [sisFieldImages, Set.mem_ofPred_eq, ShearImage]
  by_cases hp : p = (x0, y0)
  · subst hp
    have e0 : (⟨x0 - x0, y0 - y0⟩ : ℂ) = 0 := by rw [sub_self, sub_self]; rfl
    simp only [e0, ne_eq, not_true_eq_false, false_and, iff_false]
    simp only [raytraceOpt, singlePlaneO, List.foldlM_append, List.foldlM_cons, sis_pole]
    intro h
    simp at h
  have hw0 : (⟨p.1 - x0, p.2 - y0⟩ : ℂ) ≠ 0 := by
    intro h
    refine hp (Prod.ext ?_ ?_)
    · have := congrArg Complex.re h
      simp only [Complex.zero_re] at this
      linarith
    · have := congrArg Complex.im h
      simp only [Complex.zero_im] at this
      linarith
  simp only [ne_eq, hw0, not_false_eq_true, true_and]
  set w : ℂ := ⟨p.1, p.2⟩ with hw
  set S : ℂ := ((R / ‖(⟨p.1 - x0, p.2 - y0⟩ : ℂ)‖ : ℝ) : ℂ) * ⟨p.1 - x0, p.2 - y0⟩ with hS
  set A := (pre.map fun m => m.cdefl w).sum with hA
  set B := (post.map fun m => m.cdefl w).sum with hB
  have hred : (singlePlaneO z (pre.map (thin z) ++ sisThinO z x0 y0 R :: post.map (thin z))).reduced p.1 p.2 =
      some ((A + S + B).re, (A + S + B).im) := by
    have f1 := (field_sum (b := (A.re, A.im)) z pre p (0, 0)).2 ⟨hpole pre h1, (zero_add _).symm⟩
    have f2 := (field_sum (b := ((A + S + B).re, (A + S + B).im)) z post p ((A + S).re, (A + S).im)).2
      ⟨hpole post h2, rfl⟩
    simp only [singlePlaneO, List.foldlM_append, List.foldlM_cons, sis_defl_complex hp]
    rw [f1]
    simp only [Option.bind_eq_bind, Option.bind_some, Option.pure_def] at f2 ⊢
    exact f2
  have hsum : A + B = (kappaSum (pre ++ post) : ℂ) * w +
      (⟨(gammaSum (pre ++ post)).1, (gammaSum (pre ++ post)).2⟩ : ℂ) * conj w - smoothConst (pre ++ post) := by
    rw [← smooth_gather hs, List.map_append, List.sum_append]
  have hwc : (⟨p.1 - x0, p.2 - y0⟩ : ℂ) = w - ⟨x0, y0⟩ := rfl
  have hiff : raytraceOpt (singlePlaneO z (pre.map (thin z) ++ sisThinO z x0 y0 R :: post.map (thin z))).reduced
      p.1 p.2 = some b ↔ w - (A + S + B) = ⟨b.1, b.2⟩ := by
    simp only [raytraceOpt, hred, Option.bind_eq_bind, Option.bind_some, Option.pure_def, Option.some.injEq]
    constructor
    · intro h
      exact Complex.ext (congrArg Prod.fst h) (congrArg Prod.snd h)
    · intro h
      exact Prod.ext (congrArg Complex.re h) (congrArg Complex.im h)
  rw [hiff, sisFieldConst]
  clear_value S
  rw [hwc, map_sub]
  push_cast
  constructor <;> intro h
  · linear_combination h + hsum
  · linear_combination h - hsum

theorem sis_shift_injective (x0 y0 : ℝ) : Function.Injective fun p : ℝ × ℝ => (⟨p.1 - x0, p.2 - y0⟩ : ℂ) := by
  intro p q h
  refine Prod.ext ?_ ?_
  · have := congrArg Complex.re h
    simp only at this
    linarith
  · have := congrArg Complex.im h
    simp only at this
    linarith

/-- An SIS with sheets and shears, whatever their order and number: at most four images of any source. -/
theorem C132_four (z x0 y0 R : ℝ) (hR : 0 < R) (pre post : List FieldLens) (h1 : Smooth pre) (h2 : Smooth post)
    (hg : ((pre ++ post).map gamma).sum ≠ 0)
    (hdet : (1 - ((pre ++ post).map kappa).sum) ^ 2 ≠
      ((pre ++ post).map gamma).sum.1 ^ 2 + ((pre ++ post).map gamma).sum.2 ^ 2) (b : ℝ × ℝ) :
    (sisFieldImages z x0 y0 R pre post b).Finite ∧ (sisFieldImages z x0 y0 R pre post b).ncard ≤ 4 := by
  have h := shear_count (R := R) (a := 1 - kappaSum (pre ++ post))
    (g := ⟨(gammaSum (pre ++ post)).1, (gammaSum (pre ++ post)).2⟩) (ζ := sisFieldConst x0 y0 (pre ++ post) b)
    (fun h => hg (mkC_injective (h.trans rfl))) (by
      rw [← Complex.normSq_eq_norm_sq, Complex.normSq_mk, ← sq, ← sq]
      exact hdet) hR
  have hm : Set.MapsTo (fun p : ℝ × ℝ => (⟨p.1 - x0, p.2 - y0⟩ : ℂ)) (sisFieldImages z x0 y0 R pre post b)
      {w | ShearImage (1 - kappaSum (pre ++ post)) R ⟨(gammaSum (pre ++ post)).1, (gammaSum (pre ++ post)).2⟩
        (sisFieldConst x0 y0 (pre ++ post) b) w} := fun p hp => (sis_field_image h1 h2 p b).1 hp
  exact ⟨Set.Finite.of_injOn hm (sis_shift_injective x0 y0).injOn h.1,
    (Set.ncard_le_ncard_of_injOn _ hm (sis_shift_injective x0 y0).injOn h.1).trans h.2⟩

/-- The four are there: a source behind the centre of an SIS with a shear less than one. -/
theorem C132_four_reached (z R g : ℝ) (hR : 0 < R) (hg : 0 < g) (hg1 : g < 1) :
    sisFieldImages z 0 0 R [] [.shear 0 0 g 0] (0, 0) = {(R / (1 - g), 0), (-(R / (1 - g)), 0), (0, R / (1 + g)),
      (0, -(R / (1 + g)))} ∧
    (sisFieldImages z 0 0 R [] [.shear 0 0 g 0] (0, 0)).ncard = 4 := by
  have g1 : 0 < 1 - g := by linarith
  have g2 : 0 < 1 + g := by linarith
  have hu : 0 < R / (1 - g) := by positivity
  have hv : 0 < R / (1 + g) := by positivity
  have hset : sisFieldImages z 0 0 R [] [.shear 0 0 g 0] (0, 0) = {(R / (1 - g), 0), (-(R / (1 - g)), 0),
      (0, R / (1 + g)), (0, -(R / (1 + g)))} := by
    have key : ∀ p : ℝ × ℝ, p ∈ sisFieldImages z 0 0 R [] [.shear 0 0 g 0] (0, 0) ↔
        QuadImage (1 - g) (1 + g) R 0 0 p := by
      intro p
      rw [sis_field_image (by simp [Smooth]) (by simp [Smooth, place])]
      have e1 : kappaSum ([] ++ [FieldLens.shear 0 0 g 0]) = 0 := by simp [kappaSum, kappa]
      have e2 : gammaSum ([] ++ [FieldLens.shear 0 0 g 0]) = (g, 0) := by simp [gammaSum, gamma]
      have e0 : (⟨0, 0⟩ : ℂ) = 0 := rfl
      have e3 : sisFieldConst 0 0 ([] ++ [FieldLens.shear 0 0 g 0]) (0, 0) = 0 := by
        simp [sisFieldConst, smoothConst, e0]
      rw [e1, e2, e3, sub_zero, sub_zero, sub_zero, ShearImage, QuadImage]
      have hn : ‖(⟨p.1, p.2⟩ : ℂ)‖ = √(p.1 ^ 2 + p.2 ^ 2) := by
        rw [Complex.norm_def, Complex.normSq_apply]
        ring_nf
      refine and_congr (not_congr ⟨fun h => mkC_injective (h.trans rfl), fun h => by rw [h]; rfl⟩) ?_
      rw [hn, Complex.ext_iff]
      simp only [Complex.sub_re, Complex.sub_im, Complex.mul_re, Complex.mul_im, Complex.ofReal_re, Complex.ofReal_im,
        Complex.conj_re, Complex.conj_im, Complex.zero_re, Complex.zero_im]
      refine and_congr ⟨fun h => ?_, fun h => ?_⟩ ⟨fun h => ?_, fun h => ?_⟩ <;> linarith
    ext p
    rw [key]
    simp only [Set.mem_insert_iff, Set.mem_singleton_iff]
    constructor
    · rintro ⟨h0, hx, hy⟩
      have hr := quad_radius h0
      have hs := Real.sq_sqrt (show 0 ≤ p.1 ^ 2 + p.2 ^ 2 by positivity)
      set r := √(p.1 ^ 2 + p.2 ^ 2) with hrdef
      have key2 : ∀ k : ℝ, 0 < k → k - R / r = 0 → r = R / k := by
        intro k hk h
        rw [sub_eq_zero] at h
        rw [h]
        field_simp
      rcases mul_eq_zero.1 hx with hx | hx
      · have hy0 : p.2 = 0 := by
          rcases mul_eq_zero.1 hy with hy | hy
          · linarith
          · exact hy
        have h3 := key2 _ g1 hx
        rw [hy0] at hs
        have h4 : p.1 ^ 2 = (R / (1 - g)) ^ 2 := by
          rw [← h3]
          linarith
        rcases sq_eq_sq_iff_eq_or_eq_neg.1 h4 with h | h
        · exact .inl (Prod.ext h hy0)
        · exact .inr (.inl (Prod.ext h hy0))
      · have hy0 : p.2 ≠ 0 := fun h => h0 (Prod.ext hx h)
        have hy1 : 1 + g - R / r = 0 := (mul_eq_zero.1 hy).resolve_right hy0
        have h3 := key2 _ g2 hy1
        rw [hx] at hs
        have h4 : p.2 ^ 2 = (R / (1 + g)) ^ 2 := by
          rw [← h3]
          linarith
        rcases sq_eq_sq_iff_eq_or_eq_neg.1 h4 with h | h
        · exact .inr (.inr (.inl (Prod.ext hx h)))
        · exact .inr (.inr (.inr (Prod.ext hx h)))
    · rintro (rfl | rfl | rfl | rfl)
      · refine ⟨by simp [Prod.ext_iff, hu.ne'], ?_, by simp⟩
        simp only [zero_pow two_ne_zero, add_zero, Real.sqrt_sq hu.le]
        field_simp
        ring
      · refine ⟨by simp [Prod.ext_iff, hu.ne'], ?_, by simp⟩
        simp only [zero_pow two_ne_zero, add_zero, neg_sq, Real.sqrt_sq hu.le]
        field_simp
        ring
      · refine ⟨by simp [Prod.ext_iff, hv.ne'], by simp, ?_⟩
        simp only [zero_pow two_ne_zero, zero_add, Real.sqrt_sq hv.le]
        field_simp
        ring
      · refine ⟨by simp [Prod.ext_iff, hv.ne'], by simp, ?_⟩
        simp only [zero_pow two_ne_zero, zero_add, neg_sq, Real.sqrt_sq hv.le]
        field_simp
        ring
  refine ⟨hset, ?_⟩
  rw [hset]
  have h4 : ({(R / (1 - g), 0), (-(R / (1 - g)), 0), (0, R / (1 + g)), (0, -(R / (1 + g)))} : Finset (ℝ × ℝ)).card =
      4 := by
    have a1 : R / (1 - g) ≠ -(R / (1 - g)) := by linarith
    have a2 : R / (1 + g) ≠ -(R / (1 + g)) := by linarith
    rw [Finset.card_insert_of_notMem, Finset.card_insert_of_notMem, Finset.card_insert_of_notMem,
      Finset.card_singleton] <;>
      simp only [Finset.mem_insert, Finset.mem_singleton, Prod.mk.injEq, not_or, not_and] <;>
      simp [a1, a2, hu.ne']
  rw [← h4, ← Set.ncard_coe_finset]
  simp

/-- Without shear at most two, unless the source is exactly behind the sphere. -/
theorem C132_two (z x0 y0 R : ℝ) (pre post : List FieldLens) (h1 : Smooth pre) (h2 : Smooth post)
    (hg : ((pre ++ post).map gamma).sum = 0) (hk : ((pre ++ post).map kappa).sum ≠ 1) (b : ℝ × ℝ)
    (hring : (x0, y0) ∉ fieldImages z (pre ++ post) b) :
    (sisFieldImages z x0 y0 R pre post b).Finite ∧ (sisFieldImages z x0 y0 R pre post b).ncard ≤ 2 := by
  classical
  have hs : Smooth (pre ++ post) := fun m hm => (List.mem_append.1 hm).elim (h1 m) (h2 m)
  set a := 1 - kappaSum (pre ++ post) with ha
  set ζ := sisFieldConst x0 y0 (pre ++ post) b with hζ
  have ha0 : a ≠ 0 := sub_ne_zero.2 hk.symm
  have hg0 : (⟨(gammaSum (pre ++ post)).1, (gammaSum (pre ++ post)).2⟩ : ℂ) = 0 := by
    rw [gammaSum, hg]
    rfl
  have hζ0 : ζ ≠ 0 := by
    intro h
    refine hring ?_
    rw [fieldImages, Set.mem_ofPred_eq, field_image, smooth_gather hs, hg0]
    refine ⟨fun m hm => by rw [hs m hm]; simp, ?_⟩
    rw [hζ, sisFieldConst, hg0] at h
    push_cast at h
    linear_combination -h
  let f : ℝ → ℝ × ℝ := fun r => (x0 + (ζ / ((a - R / r : ℝ) : ℂ)).re, y0 + (ζ / ((a - R / r : ℝ) : ℂ)).im)
  have hsub : sisFieldImages z x0 y0 R pre post b ⊆
      (({f ((R + ‖ζ‖) / a), f ((R - ‖ζ‖) / a)} : Finset (ℝ × ℝ)) : Set (ℝ × ℝ)) := by
    intro p hp
    obtain ⟨h0, he⟩ := (sis_field_image h1 h2 p b).1 hp
    rw [← ha, ← hζ, hg0, zero_mul, sub_zero] at he
    set w : ℂ := ⟨p.1 - x0, p.2 - y0⟩ with hw
    have hr : 0 < ‖w‖ := norm_pos_iff.2 h0
    have he2 : ((a - R / ‖w‖ : ℝ) : ℂ) * w = ζ := by
      push_cast at he ⊢
      linear_combination he
    have hc : ((a - R / ‖w‖ : ℝ) : ℂ) ≠ 0 := by
      intro h
      rw [h, zero_mul] at he2
      exact hζ0 he2.symm
    have hwf : w = ζ / ((a - R / ‖w‖ : ℝ) : ℂ) := by
      rw [eq_div_iff hc, ← he2]
      ring
    have hpf : p = f ‖w‖ := by
      refine Prod.ext ?_ ?_
      · simp only [f]
        rw [← hwf, hw]
        ring
      · simp only [f]
        rw [← hwf, hw]
        ring
    have hn : |a * ‖w‖ - R| = ‖ζ‖ := by
      have e : a * ‖w‖ - R = (a - R / ‖w‖) * ‖w‖ := by field_simp
      rw [← he2, norm_mul, Complex.norm_real, Real.norm_eq_abs, e, abs_mul, abs_of_pos hr]
    simp only [Finset.coe_insert, Finset.coe_singleton, Set.mem_insert_iff, Set.mem_singleton_iff]
    rcases abs_choice (a * ‖w‖ - R) with h | h
    · left
      rw [hpf]
      congr 1
      rw [eq_div_iff ha0]
      linarith
    · right
      rw [hpf]
      congr 1
      rw [eq_div_iff ha0]
      linarith
  refine ⟨(Finset.finite_toSet _).subset hsub, ?_⟩
  refine (Set.ncard_le_ncard hsub (Finset.finite_toSet _)).trans ?_
  rw [Set.ncard_coe_finset]
  exact Finset.card_le_two

/-- The exception in `C132_four`: with a shear of one, a source on the axis of the shear at the distance of the Einstein
radius is seen all along a half line. -/
theorem C132_line (z R : ℝ) (hR : 0 < R) (x : ℝ) (hx : 0 < x) :
    (x, 0) ∈ sisFieldImages z 0 0 R [] [.shear 0 0 1 0] (-R, 0) := by
  rw [sis_field_image (by simp [Smooth]) (by simp [Smooth, place])]
  have e0 : (⟨0, 0⟩ : ℂ) = 0 := rfl
  have er : ∀ t : ℝ, (⟨t, 0⟩ : ℂ) = t := fun t => rfl
  have e1 : kappaSum ([] ++ [FieldLens.shear 0 0 1 0]) = 0 := by simp [kappaSum, kappa]
  have e2 : gammaSum ([] ++ [FieldLens.shear 0 0 1 0]) = (1, 0) := by simp [gammaSum, gamma]
  have e3 : sisFieldConst 0 0 ([] ++ [FieldLens.shear 0 0 1 0]) (-R, 0) = -R := by
    simp [sisFieldConst, smoothConst, e0, er]
  simp only [e1, e2, e3, sub_zero, er, ShearImage]
  refine ⟨by simpa using hx.ne', ?_⟩
  rw [Complex.conj_ofReal, Complex.norm_real, Real.norm_eq_abs, abs_of_pos hx]
  have : R / x * x = R := by field_simp
  push_cast
  have h2 : ((R / x * x : ℝ) : ℂ) = R := by rw [this]
  push_cast at h2
  linear_combination -h2

/-- An SIS of Einstein radius one between a sheet and a shear. -/
example (b : ℝ × ℝ) :
    (sisFieldImages (1 / 2) 0 0 1 [.sheet 0 0 (1 / 4)] [.shear 1 1 (1 / 10) (1 / 20)] b).ncard ≤ 4 :=
  (C132_four (1 / 2) 0 0 1 one_pos [.sheet 0 0 (1 / 4)] [.shear 1 1 (1 / 10) (1 / 20)] (by simp [Smooth, place])
    (by simp [Smooth, place]) (by simp [gamma]) (by norm_num [gamma, kappa]) b).2

/-- Two images of a source off the centre. -/
example : (sisFieldImages (1 / 2) 0 0 1 [] [] (1 / 2, 0)).ncard ≤ 2 :=
  (C132_two (1 / 2) 0 0 1 [] [] (by simp [Smooth]) (by simp [Smooth]) (by simp) (by simp) (1 / 2, 0)
    (by simp [fieldImages, raytraceOpt, singlePlaneO])).2

end Caustics

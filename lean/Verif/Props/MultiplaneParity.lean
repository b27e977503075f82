import Verif.Props.ParityLenses
import Verif.Props.MultiplaneJac

/-!
C144: the parities of the images of a multiplane lens.
-/

namespace Caustics

open ComplexConjugate Filter Topology MeasureTheory

/-! ### Smooth maps of the plane that are linear up to a bounded term -/

section
variable {F : ℝ → ℝ → ℝ × ℝ} {b : ℝ × ℝ}

/-- `F - b` in complex numbers. -/
noncomputable def mapC (F : ℝ → ℝ → ℝ × ℝ) (b : ℝ × ℝ) (w : ℂ) : ℂ := toC F w - ⟨b.1, b.2⟩

theorem mapC_zero {w : ℂ} : mapC F b w = 0 ↔ F w.re w.im = b := by
  rw [mapC, sub_eq_zero, toC]
  exact ⟨fun h => Prod.ext (congrArg Complex.re h) (congrArg Complex.im h), fun h => by rw [h]⟩

theorem mapC_contDiff (hF : ContDiff ℝ 1 fun p : ℝ × ℝ => F p.1 p.2) : ContDiff ℝ 1 (mapC F b) := by
  have : ContDiff ℝ 1 (toC F) := by
    rw [toC_eq]
    exact Complex.equivRealProdCLM.symm.contDiff.comp (hF.comp Complex.equivRealProdCLM.contDiff)
  exact this.sub contDiff_const

theorem mapC_det (hF : ContDiff ℝ 1 fun p : ℝ × ℝ => F p.1 p.2) {p : ℝ × ℝ} {J : M22 ℝ}
    (hJ : HasJac F J.a00 J.a01 J.a10 J.a11 p.1 p.2) :
    planeDet (mapC F b) ⟨p.1, p.2⟩ = J.a00 * J.a11 - J.a01 * J.a10 := by
  have hd : HasFDerivAt (mapC F b) (fderiv ℝ (mapC F b) ⟨p.1, p.2⟩) (⟨p.1, p.2⟩ : ℂ) :=
    ((mapC_contDiff (b := b) hF).differentiable one_ne_zero _).hasFDerivAt
  set D := fderiv ℝ (mapC F b) ⟨p.1, p.2⟩ with hD
  have hG : HasGrad (fun x y => mapC F b ⟨x, y⟩) (D 1) (D Complex.I) p.1 p.2 := by
    have h3 : HasFDerivAt (fun q : ℝ × ℝ => mapC F b ⟨q.1, q.2⟩)
        (D.comp (Complex.equivRealProdCLM.symm : ℝ × ℝ →L[ℝ] ℂ)) p :=
      HasFDerivAt.comp (f := fun q : ℝ × ℝ => (⟨q.1, q.2⟩ : ℂ)) p hd Complex.equivRealProdCLM.symm.hasFDerivAt
    refine h3.congr_fderiv (ContinuousLinearMap.ext fun q => ?_)
    have e : (Complex.equivRealProdCLM.symm q : ℂ) = q.1 • (1 : ℂ) + q.2 • Complex.I := by
      apply Complex.ext <;> simp
    simp only [ContinuousLinearMap.comp_apply, ContinuousLinearEquiv.coe_coe, e, map_add, map_smul]
    rfl
  have h1 := (hG.clm Complex.reCLM).add (HasGrad.const b.1 p.1 p.2)
  have h2 := (hG.clm Complex.imCLM).add (HasGrad.const b.2 p.1 p.2)
  have u1 := hJ.1.unique (h1.congr_near (Eventually.of_forall fun q => by simp [mapC, toC]))
  have u2 := hJ.2.unique (h2.congr_near (Eventually.of_forall fun q => by simp [mapC, toC]))
  rw [u1.1, u1.2, u2.1, u2.2, planeDet, ← hD]
  simp [Complex.mul_im]
  ring

theorem map_hasJac (hF : ContDiff ℝ 1 fun p : ℝ × ℝ => F p.1 p.2) (p : ℝ × ℝ) :
    ∃ J : M22 ℝ, HasJac F J.a00 J.a01 J.a10 J.a11 p.1 p.2 := by
  have hd : HasFDerivAt (fun p : ℝ × ℝ => F p.1 p.2) _ p := (hF.differentiable one_ne_zero p).hasFDerivAt
  set D := fderiv ℝ (fun p : ℝ × ℝ => F p.1 p.2) p
  have key : ∀ q : ℝ × ℝ, D q = q.1 • D (1, 0) + q.2 • D (0, 1) := fun q => by
    rw [← map_smul, ← map_smul, ← map_add]
    simp
  refine ⟨⟨(D (1, 0)).1, (D (0, 1)).1, (D (1, 0)).2, (D (0, 1)).2⟩, ?_, ?_⟩
  · refine (hasFDerivAt_fst.comp p hd).congr_fderiv (ContinuousLinearMap.ext fun q => ?_)
    simp only [ContinuousLinearMap.comp_apply, key q]
    rfl
  · refine (hasFDerivAt_snd.comp p hd).congr_fderiv (ContinuousLinearMap.ext fun q => ?_)
    simp only [ContinuousLinearMap.comp_apply, key q]
    rfl

/-- The linear map with matrix `M` in complex numbers. -/
theorem linear_complex (M : M22 ℝ) : ∃ A B : ℂ, ‖A‖ ^ 2 - ‖B‖ ^ 2 = M.a00 * M.a11 - M.a01 * M.a10 ∧
    ∀ w : ℂ, A * w + B * conj w = ⟨M.a00 * w.re + M.a01 * w.im, M.a10 * w.re + M.a11 * w.im⟩ := by
  set u : ℂ := ⟨M.a00, M.a10⟩ with hu
  set v : ℂ := ⟨M.a01, M.a11⟩ with hv
  refine ⟨(u - Complex.I * v) / 2, (u + Complex.I * v) / 2, ?_, fun w => ?_⟩
  · rw [linear_det]
    simp [hu, hv, Complex.mul_im]
    ring
  · have e : w = w.re + w.im * Complex.I := (Complex.re_add_im w).symm
    have e2 : conj w = w.re - w.im * Complex.I := by
      apply Complex.ext <;> simp
    have e3 : (u - Complex.I * v) / 2 * w + (u + Complex.I * v) / 2 * conj w = w.re * u + w.im * v := by
      rw [e2]
      generalize (w.re : ℂ) = r at e
      generalize (w.im : ℂ) = i at e
      rw [e]
      linear_combination (-i * v) * Complex.I_sq
    rw [e3]
    apply Complex.ext <;> simp [hu, hv] <;> ring

theorem map_parities (hF : ContDiff ℝ 1 fun p : ℝ × ℝ => F p.1 p.2) (M : M22 ℝ)
    (hM : M.a00 * M.a11 - M.a01 * M.a10 ≠ 0) {C : ℝ}
    (hC : ∀ x y, ‖F x y - (M.a00 * x + M.a01 * y, M.a10 * x + M.a11 * y)‖ ≤ C) {J : ℝ × ℝ → M22 ℝ}
    (hJ : ∀ p : ℝ × ℝ, F p.1 p.2 = b → HasJac F (J p).a00 (J p).a01 (J p).a10 (J p).a11 p.1 p.2)
    (hreg : ∀ p : ℝ × ℝ, F p.1 p.2 = b → (J p).a00 * (J p).a11 - (J p).a01 * (J p).a10 ≠ 0) :
    {p : ℝ × ℝ | F p.1 p.2 = b}.Finite ∧
    ({p : ℝ × ℝ | F p.1 p.2 = b ∧ 0 < (J p).a00 * (J p).a11 - (J p).a01 * (J p).a10}.ncard : ℤ) -
      {p : ℝ × ℝ | F p.1 p.2 = b ∧ (J p).a00 * (J p).a11 - (J p).a01 * (J p).a10 < 0}.ncard =
      if 0 < M.a00 * M.a11 - M.a01 * M.a10 then 1 else -1 := by
  classical
  obtain ⟨A, B, hAB, hlin⟩ := linear_complex M
  have hne : ‖A‖ ≠ ‖B‖ := fun h => hM (by rw [← hAB, h, sub_self])
  have hsgn : ‖B‖ < ‖A‖ ↔ 0 < M.a00 * M.a11 - M.a01 * M.a10 := by
    rw [← hAB, sub_pos, pow_lt_pow_iff_left₀ (norm_nonneg _) (norm_nonneg _) two_ne_zero]
  set c := |‖A‖ - ‖B‖| with hc
  have hc0 : 0 < c := abs_pos.2 (sub_ne_zero.2 hne)
  have hC0 : 0 ≤ C := (norm_nonneg _).trans (hC 0 0)
  have hbound : ∀ w, ‖mapC F b w - (A * w + B * conj w)‖ ≤ 2 * C + ‖(⟨b.1, b.2⟩ : ℂ)‖ := by
    intro w
    have h1 := hC w.re w.im
    rw [Prod.norm_def, max_le_iff] at h1
    have e : mapC F b w - (A * w + B * conj w) =
        (⟨(F w.re w.im).1 - (M.a00 * w.re + M.a01 * w.im), (F w.re w.im).2 - (M.a10 * w.re + M.a11 * w.im)⟩ : ℂ) -
          ⟨b.1, b.2⟩ := by
      rw [hlin, mapC, toC]
      apply Complex.ext <;> simp <;> ring
    rw [e]
    refine (norm_sub_le _ _).trans (add_le_add_left ?_ _)
    refine (Complex.norm_le_abs_re_add_abs_im _).trans ?_
    have := h1.1
    have := h1.2
    simp only [Prod.fst_sub, Prod.snd_sub, Real.norm_eq_abs] at *
    linarith
  have hfar : ∀ w, (2 * C + ‖(⟨b.1, b.2⟩ : ℂ)‖ + 1) / c ≤ ‖w‖ →
      ‖mapC F b w - (A * w + B * conj w)‖ < ‖A * w + B * conj w‖ := by
    intro w hw
    have k2 : 2 * C + ‖(⟨b.1, b.2⟩ : ℂ)‖ + 1 ≤ ‖w‖ * c := by rwa [← div_le_iff₀ hc0]
    have k3 : c * ‖w‖ ≤ ‖A * w + B * conj w‖ := by
      have h1 : ‖A * w‖ = ‖A‖ * ‖w‖ := norm_mul _ _
      have h2 : ‖B * conj w‖ = ‖B‖ * ‖w‖ := by rw [norm_mul, Complex.norm_conj]
      have h3 := abs_norm_sub_norm_le (A * w) (-(B * conj w))
      rw [sub_neg_eq_add, norm_neg, h1, h2, ← sub_mul, abs_mul, abs_norm] at h3
      exact h3
    have := hbound w
    linarith
  have hdetJ : ∀ p : ℝ × ℝ, F p.1 p.2 = b → (J p).a00 * (J p).a11 - (J p).a01 * (J p).a10 =
      planeDet (mapC F b) ⟨p.1, p.2⟩ := fun p hp => (mapC_det hF (hJ p hp)).symm
  obtain ⟨hfin, hsum⟩ := degree_count (f := mapC F b) (Z := ∅) (k := fun _ => 0)
    (fun w _ => (mapC_contDiff hF).contDiffAt) (by simp) (by simp) (fun w _ h0 => by
      have hp := mapC_zero.1 h0
      have := hreg (w.re, w.im) hp
      rw [hdetJ (w.re, w.im) hp] at this
      exact this) hne hfar
  let e : ℝ × ℝ ↪ ℂ := ⟨fun c : ℝ × ℝ => (⟨c.1, c.2⟩ : ℂ), mkC_injective⟩
  have hfin' : {p : ℝ × ℝ | F p.1 p.2 = b}.Finite := by
    have := hfin.preimage (f := e) e.injective.injOn
    refine this.subset fun p hp => ?_
    exact ⟨Finset.notMem_empty _, mapC_zero.2 hp⟩
  refine ⟨hfin', ?_⟩
  have hT : hfin.toFinset = hfin'.toFinset.map e := by
    ext w
    rw [Finset.mem_map, Set.Finite.mem_toFinset]
    constructor
    · intro hw
      exact ⟨(w.re, w.im), (Set.Finite.mem_toFinset _).2 (mapC_zero.1 hw.2), rfl⟩
    · rintro ⟨p, hp, rfl⟩
      have hp' : F p.1 p.2 = b := by simpa using hp
      exact ⟨Finset.notMem_empty _, mapC_zero.2 hp'⟩
  rw [hT, Finset.sum_map, Finset.sum_empty, add_zero] at hsum
  simp only [hsgn] at hsum
  rw [← hsum]
  have h1 : {p : ℝ × ℝ | F p.1 p.2 = b ∧ 0 < (J p).a00 * (J p).a11 - (J p).a01 * (J p).a10} =
      (hfin'.toFinset.filter fun p => 0 < (J p).a00 * (J p).a11 - (J p).a01 * (J p).a10 : Finset (ℝ × ℝ)) := by
    ext p
    simp
  have h2 : {p : ℝ × ℝ | F p.1 p.2 = b ∧ (J p).a00 * (J p).a11 - (J p).a01 * (J p).a10 < 0} =
      (hfin'.toFinset.filter fun p => (J p).a00 * (J p).a11 - (J p).a01 * (J p).a10 < 0 : Finset (ℝ × ℝ)) := by
    ext p
    simp
  rw [h1, h2, Set.ncard_coe_finset, Set.ncard_coe_finset, Finset.card_filter, Finset.card_filter, Nat.cast_sum,
    Nat.cast_sum, ← Finset.sum_sub_distrib]
  refine Finset.sum_congr rfl fun p hp => ?_
  have hp' : F p.1 p.2 = b := by simpa using hp
  have hd := hdetJ p hp'
  change _ = (SignType.sign (planeDet (mapC F b) ⟨p.1, p.2⟩) : ℤ)
  rw [← hd]
  rcases lt_or_gt_of_ne (hreg p hp') with h | h
  · rw [if_neg (not_lt.2 h.le), if_pos h, sign_neg h]
    rfl
  · rw [if_pos h, if_neg (not_lt.2 h.le), sign_pos h]
    rfl

theorem map_regular_ae (hF : ContDiff ℝ 1 fun p : ℝ × ℝ => F p.1 p.2) :
    ∀ᵐ b : ℝ × ℝ, ∀ (p : ℝ × ℝ) (J : M22 ℝ), F p.1 p.2 = b → HasJac F J.a00 J.a01 J.a10 J.a11 p.1 p.2 →
      J.a00 * J.a11 - J.a01 * J.a10 ≠ 0 := by
  have hc := measure_eq_zero_iff_ae_notMem.1
    (null_pairs (critical_null (f := mapC F 0) (Z := ∅) fun w _ => (mapC_contDiff hF).contDiffAt))
  filter_upwards [hc] with b hb p J hp hJ h0
  refine hb ⟨⟨p.1, p.2⟩, ⟨Finset.notMem_empty _, ?_⟩, ?_⟩
  · rw [mapC_det hF hJ, h0]
  · rw [mapC, toC, hp]
    exact sub_zero _

end

/-! ### The ray tracer -/

/-- How the loop variables depend on the image position: smoothly, and as those of another system up to bounded terms. -/
structure NearState (s t : ℝ × ℝ → MPState ℝ) : Prop where
  X : ContDiff ℝ 1 fun p => (s p).X
  Y : ContDiff ℝ 1 fun p => (s p).Y
  thx : ContDiff ℝ 1 fun p => (s p).thx
  thy : ContDiff ℝ 1 fun p => (s p).thy
  bound : ∃ C, ∀ p, |(s p).X - (t p).X| ≤ C ∧ |(s p).Y - (t p).Y| ≤ C ∧ |(s p).thx - (t p).thx| ≤ C ∧
    |(s p).thy - (t p).thy| ≤ C

/-- The deflection is smooth, and `U` up to a bounded term. -/
def LinearFar (a : ℝ → ℝ → ℝ × ℝ) (U : ℝ × ℝ →L[ℝ] ℝ × ℝ) : Prop :=
  ContDiff ℝ 1 (fun p : ℝ × ℝ => a p.1 p.2) ∧ ∃ C, ∀ p : ℝ × ℝ, ‖a p.1 p.2 - U p‖ ≤ C

theorem nearState_body (e : MPEnv ℝ) (zs zn : ℝ) (l : MPlane ℝ) (U : MPlane ℝ → ℝ × ℝ →L[ℝ] ℝ × ℝ)
    (hl : LinearFar l.alpha (U l)) {s t : ℝ × ℝ → MPState ℝ} (h : NearState s t) :
    NearState (fun p => mpBody e zs false false l zn (s p)) fun p => mpBody e zs false false (linPlane U l) zn (t p) := by
  obtain ⟨hs, Ca, hCa⟩ := hl
  obtain ⟨C, hC⟩ := h.bound
  set k := e.radToArcsec / e.dist l.z with hk
  have hpx : ∀ X : ℝ, X * e.radToArcsec / e.dist l.z = k * X := fun X => by rw [hk]; ring
  set al : ℝ × ℝ → ℝ × ℝ := fun p => l.alpha (k * (s p).X) (k * (s p).Y) with hal
  have hals : ContDiff ℝ 1 al :=
    hs.comp ((contDiff_const.mul h.X).prodMk (contDiff_const.mul h.Y))
  set bl : ℝ × ℝ → ℝ × ℝ := fun p => U l (k * (t p).X, k * (t p).Y) with hbl
  have hab : ∀ p, ‖al p - bl p‖ ≤ Ca + ‖U l‖ * (|k| * C) := by
    intro p
    have e1 : al p - bl p = (l.alpha (k * (s p).X) (k * (s p).Y) - U l (k * (s p).X, k * (s p).Y)) +
        U l (k * ((s p).X - (t p).X), k * ((s p).Y - (t p).Y)) := by
      have : ((k * ((s p).X - (t p).X), k * ((s p).Y - (t p).Y)) : ℝ × ℝ) =
          (k * (s p).X, k * (s p).Y) - (k * (t p).X, k * (t p).Y) := by
        ext <;> simp <;> ring
      rw [this, map_sub]
      simp only [hal, hbl]
      abel
    rw [e1]
    refine (norm_add_le _ _).trans (add_le_add (hCa (k * (s p).X, k * (s p).Y)) ((U l).le_opNorm_of_le ?_))
    rw [Prod.norm_def, max_le_iff, Real.norm_eq_abs, Real.norm_eq_abs, abs_mul, abs_mul]
    exact ⟨mul_le_mul_of_nonneg_left (hC p).1 (abs_nonneg _), mul_le_mul_of_nonneg_left (hC p).2.1 (abs_nonneg _)⟩
  set D := Ca + ‖U l‖ * (|k| * C) with hD
  have hab1 : ∀ p, |(al p).1 - (bl p).1| ≤ D := fun p => (norm_fst_le (al p - bl p)).trans (hab p)
  have hab2 : ∀ p, |(al p).2 - (bl p).2| ≤ D := fun p => (norm_snd_le (al p - bl p)).trans (hab p)
  set d := e.dist12 l.z zn * e.arcsecToRad with hd
  have h1 : ∀ p, mpBody e zs false false l zn (s p) = ⟨(s p).X + d * ((s p).thx - (al p).1),
      (s p).Y + d * ((s p).thy - (al p).2), (s p).thx - (al p).1, (s p).thy - (al p).2, (s p).td⟩ := by
    intro p
    simp only [mpBody, hpx, hal, Bool.false_eq_true, if_false, hd, MPState.mk.injEq, and_true]
    exact ⟨by ring, by ring⟩
  have h2 : ∀ p, mpBody e zs false false (linPlane U l) zn (t p) = ⟨(t p).X + d * ((t p).thx - (bl p).1),
      (t p).Y + d * ((t p).thy - (bl p).2), (t p).thx - (bl p).1, (t p).thy - (bl p).2, (t p).td⟩ := by
    intro p
    simp only [mpBody, linPlane, hpx, hbl, Bool.false_eq_true, if_false, hd, MPState.mk.injEq, and_true]
    exact ⟨by ring, by ring⟩
  have htx : ContDiff ℝ 1 fun p => (s p).thx - (al p).1 := h.thx.sub (contDiff_fst.comp hals)
  have hty : ContDiff ℝ 1 fun p => (s p).thy - (al p).2 := h.thy.sub (contDiff_snd.comp hals)
  have hb1 : ∀ p, |(s p).thx - (al p).1 - ((t p).thx - (bl p).1)| ≤ C + D := fun p => by
    rw [show (s p).thx - (al p).1 - ((t p).thx - (bl p).1) = ((s p).thx - (t p).thx) - ((al p).1 - (bl p).1) by ring]
    exact (abs_sub _ _).trans (add_le_add (hC p).2.2.1 (hab1 p))
  have hb2 : ∀ p, |(s p).thy - (al p).2 - ((t p).thy - (bl p).2)| ≤ C + D := fun p => by
    rw [show (s p).thy - (al p).2 - ((t p).thy - (bl p).2) = ((s p).thy - (t p).thy) - ((al p).2 - (bl p).2) by ring]
    exact (abs_sub _ _).trans (add_le_add (hC p).2.2.2 (hab2 p))
  have hC0 : 0 ≤ C := (abs_nonneg _).trans (hC 0).1
  have hD0 : 0 ≤ D := (abs_nonneg _).trans (hab1 0)
  simp only [h1, h2]
  refine ⟨h.X.add (contDiff_const.mul htx), h.Y.add (contDiff_const.mul hty), htx, hty, C + D + |d| * (C + D), fun p =>
    ⟨?_, ?_, (hb1 p).trans (le_add_of_nonneg_right (by positivity)), (hb2 p).trans (le_add_of_nonneg_right (by positivity))⟩⟩
  · rw [show (s p).X + d * ((s p).thx - (al p).1) - ((t p).X + d * ((t p).thx - (bl p).1)) =
      ((s p).X - (t p).X) + d * ((s p).thx - (al p).1 - ((t p).thx - (bl p).1)) by ring]
    refine (abs_add_le _ _).trans (add_le_add ((hC p).1.trans (le_add_of_nonneg_right hD0)) ?_)
    rw [abs_mul]
    exact mul_le_mul_of_nonneg_left (hb1 p) (abs_nonneg _)
  · rw [show (s p).Y + d * ((s p).thy - (al p).2) - ((t p).Y + d * ((t p).thy - (bl p).2)) =
      ((s p).Y - (t p).Y) + d * ((s p).thy - (al p).2 - ((t p).thy - (bl p).2)) by ring]
    refine (abs_add_le _ _).trans (add_le_add ((hC p).2.1.trans (le_add_of_nonneg_right hD0)) ?_)
    rw [abs_mul]
    exact mul_le_mul_of_nonneg_left (hb2 p) (abs_nonneg _)

theorem nearState_chain (e : MPEnv ℝ) (zs : ℝ) (U : MPlane ℝ → ℝ × ℝ →L[ℝ] ℝ × ℝ) (ls : List (MPlane ℝ))
    (hl : ∀ l ∈ ls, LinearFar l.alpha (U l)) {s t : ℝ × ℝ → MPState ℝ} (h : NearState s t) :
    NearState (fun p => mpChain e zs false false ls (s p)) fun p => mpChain e zs false false (ls.map (linPlane U)) (t p) := by
  induction ls generalizing s t with
  | nil => exact h
  | cons l ls ih =>
    have hz : ((ls.map (linPlane U)).head?.map MPlane.z).getD zs = (ls.head?.map MPlane.z).getD zs := by
      cases ls <;> rfl
    simp only [List.map_cons, mpChain, hz]
    exact ih (fun m hm => hl m (List.mem_cons_of_mem _ hm)) (nearState_body e zs _ l U (hl l (by simp)) h)

/-- The source position as a function of the image position. -/
noncomputable def mpMap (e : MPEnv ℝ) (zs : ℝ) (ls : List (MPlane ℝ)) (x y : ℝ) : ℝ × ℝ := (mpRaytrace e zs ls x y).getD 0

theorem mpMap_near (e : MPEnv ℝ) (zs : ℝ) (U : MPlane ℝ → ℝ × ℝ →L[ℝ] ℝ × ℝ) (ls : List (MPlane ℝ)) (hne : ls ≠ [])
    (hsort : SortedByZ ls) (hl : ∀ l ∈ ls, LinearFar l.alpha (U l)) :
    (∀ x y, mpRaytrace e zs ls x y = some (mpMap e zs ls x y)) ∧
    (ContDiff ℝ 1 fun p : ℝ × ℝ => mpMap e zs ls p.1 p.2) ∧
    ∃ C, ∀ x y, ‖mpMap e zs ls x y - mpMap e zs (ls.map (linPlane U)) x y‖ ≤ C := by
  obtain ⟨l, ls, rfl⟩ := List.exists_cons_of_ne_nil hne
  have hs' : SortedByZ (linPlane U l :: ls.map (linPlane U)) := by
    have : SortedByZ ((l :: ls).map (linPlane U)) := by
      unfold SortedByZ
      rw [List.pairwise_map]
      exact hsort
    exact this
  have h1 := fun x y => mpHelper_sorted e zs false false l ls hsort x y
  have h2 := fun x y => mpHelper_sorted e zs false false (linPlane U l) (ls.map (linPlane U)) hs' x y
  set s0 : ℝ × ℝ → MPState ℝ := fun p => { X := p.1 * e.arcsecToRad * e.dist l.z, Y := p.2 * e.arcsecToRad * e.dist l.z, thx := p.1, thy := p.2, td := 0 } with hs0
  have h0 : NearState s0 s0 := by
    refine ⟨?_, ?_, contDiff_fst, contDiff_snd, 0, fun p => by simp⟩
    · exact (contDiff_fst.mul contDiff_const).mul contDiff_const
    · exact (contDiff_snd.mul contDiff_const).mul contDiff_const
  have h3 := nearState_chain e zs U (l :: ls) hl h0
  set s := fun p => mpChain e zs false false (l :: ls) (s0 p) with hs
  set t := fun p => mpChain e zs false false ((l :: ls).map (linPlane U)) (s0 p) with ht
  set k := e.radToArcsec / e.dist zs with hk
  have m1 : ∀ x y, mpRaytrace e zs (l :: ls) x y = some (k * (s (x, y)).X, k * (s (x, y)).Y) := fun x y => by
    rw [mpRaytrace, h1]
    simp only [Option.map_some, Option.some.injEq, Prod.mk.injEq, hk, hs, hs0]
    exact ⟨by ring, by ring⟩
  have m2 : ∀ x y, mpRaytrace e zs ((l :: ls).map (linPlane U)) x y = some (k * (t (x, y)).X, k * (t (x, y)).Y) :=
    fun x y => by
      rw [List.map_cons, mpRaytrace, h2]
      simp only [Option.map_some, Option.some.injEq, Prod.mk.injEq, hk, ht, hs0]
      exact ⟨by rw [mul_div_assoc, mul_comm]; rfl, by rw [mul_div_assoc, mul_comm]; rfl⟩
  obtain ⟨C, hC⟩ := h3.bound
  refine ⟨fun x y => by rw [mpMap, m1]; rfl, ?_, |k| * C, fun x y => ?_⟩
  · simp only [mpMap, m1, Option.getD_some]
    exact (contDiff_const.mul h3.X).prodMk (contDiff_const.mul h3.Y)
  · simp only [mpMap, m1, m2, Option.getD_some]
    rw [Prod.norm_def, max_le_iff]
    simp only [Prod.fst_sub, Prod.snd_sub, Real.norm_eq_abs, ← mul_sub, abs_mul]
    exact ⟨mul_le_mul_of_nonneg_left (hC (x, y)).1 (abs_nonneg _), mul_le_mul_of_nonneg_left (hC (x, y)).2.1 (abs_nonneg _)⟩

/-- The positions that `raytrace` of a `Multiplane` maps to `b`. -/
def mpImages (e : MPEnv ℝ) (zs : ℝ) (ls : List (MPlane ℝ)) (b : ℝ × ℝ) : Set (ℝ × ℝ) :=
  {p | mpRaytrace e zs ls p.1 p.2 = some b}

/-- `J` is the Jacobian of `raytrace` at `p`. -/
def MPJacobian (e : MPEnv ℝ) (zs : ℝ) (ls : List (MPlane ℝ)) (p : ℝ × ℝ) (J : M22 ℝ) : Prop :=
  ∃ f : ℝ → ℝ → ℝ × ℝ, (∀ᶠ q in 𝓝 p, mpRaytrace e zs ls q.1 q.2 = some (f q.1 q.2)) ∧
    HasJac f J.a00 J.a01 J.a10 J.a11 p.1 p.2

theorem MPJacobian.hasJac {e : MPEnv ℝ} {zs : ℝ} {ls : List (MPlane ℝ)} {p : ℝ × ℝ} {J : M22 ℝ}
    (h : MPJacobian e zs ls p J) : HasJac (mpMap e zs ls) J.a00 J.a01 J.a10 J.a11 p.1 p.2 := by
  obtain ⟨f, hf, h1, h2⟩ := h
  have hev : ∀ᶠ q : ℝ × ℝ in 𝓝 (p.1, p.2), mpMap e zs ls q.1 q.2 = f q.1 q.2 := by
    filter_upwards [hf] with q hq
    rw [mpMap, hq]
    rfl
  exact ⟨h1.congr_near (hev.mono fun q hq => congrArg Prod.fst hq), h2.congr_near (hev.mono fun q hq => congrArg Prod.snd hq)⟩

/-- **The parities of a multiplane lens.** Any number of lens planes in order of redshift, each with a smooth deflection
that far away is linear (a sheet and a shear, or nothing) up to a bounded term. `M` is the matrix of the system of those
linear deflections alone. If no image of the source is on a critical curve there are finitely many images, and the number
of those of positive parity exceeds the number of those of negative parity by the sign of the determinant of `M`. -/
theorem C144_parities (e : MPEnv ℝ) (zs : ℝ) (ls : List (MPlane ℝ)) (hne : ls ≠ []) (hsort : SortedByZ ls)
    (U : MPlane ℝ → ℝ × ℝ →L[ℝ] ℝ × ℝ) (hl : ∀ l ∈ ls, LinearFar l.alpha (U l)) (M : M22 ℝ)
    (hM : ∀ x y, mpRaytrace e zs (ls.map (linPlane U)) x y = some (M.a00 * x + M.a01 * y, M.a10 * x + M.a11 * y))
    (hdet : M.a00 * M.a11 - M.a01 * M.a10 ≠ 0) (b : ℝ × ℝ)
    {J : ℝ × ℝ → M22 ℝ} (hJ : ∀ p ∈ mpImages e zs ls b, MPJacobian e zs ls p (J p))
    (hreg : ∀ p ∈ mpImages e zs ls b, (J p).a00 * (J p).a11 - (J p).a01 * (J p).a10 ≠ 0) :
    (mpImages e zs ls b).Finite ∧
    ({p ∈ mpImages e zs ls b | 0 < (J p).a00 * (J p).a11 - (J p).a01 * (J p).a10}.ncard : ℤ) -
      {p ∈ mpImages e zs ls b | (J p).a00 * (J p).a11 - (J p).a01 * (J p).a10 < 0}.ncard =
      if 0 < M.a00 * M.a11 - M.a01 * M.a10 then 1 else -1 := by
  obtain ⟨h1, h2, C, hC⟩ := mpMap_near e zs U ls hne hsort hl
  have hi : ∀ p : ℝ × ℝ, p ∈ mpImages e zs ls b ↔ mpMap e zs ls p.1 p.2 = b := fun p => by
    change mpRaytrace e zs ls p.1 p.2 = some b ↔ _
    rw [h1, Option.some.injEq]
  have h3 := map_parities (F := mpMap e zs ls) (b := b) h2 M hdet (C := C) (fun x y => by
      have := hC x y
      rwa [show mpMap e zs (ls.map (linPlane U)) x y = (M.a00 * x + M.a01 * y, M.a10 * x + M.a11 * y) by
        rw [mpMap, hM]; rfl] at this) (J := J)
    (fun p hp => (hJ p ((hi p).2 hp)).hasJac) fun p hp => hreg p ((hi p).2 hp)
  have e0 : mpImages e zs ls b = {p | mpMap e zs ls p.1 p.2 = b} := Set.ext hi
  rw [e0]
  exact h3

/-- For almost every source the hypotheses on its images hold, and the number of images is odd. -/
theorem C144_odd (e : MPEnv ℝ) (zs : ℝ) (ls : List (MPlane ℝ)) (hne : ls ≠ []) (hsort : SortedByZ ls)
    (U : MPlane ℝ → ℝ × ℝ →L[ℝ] ℝ × ℝ) (hl : ∀ l ∈ ls, LinearFar l.alpha (U l)) (M : M22 ℝ)
    (hM : ∀ x y, mpRaytrace e zs (ls.map (linPlane U)) x y = some (M.a00 * x + M.a01 * y, M.a10 * x + M.a11 * y))
    (hdet : M.a00 * M.a11 - M.a01 * M.a10 ≠ 0) :
    ∀ᵐ b : ℝ × ℝ, (mpImages e zs ls b).Finite ∧ (mpImages e zs ls b).ncard % 2 = 1 ∧
      ∃ J : ℝ × ℝ → M22 ℝ, ∀ p ∈ mpImages e zs ls b, MPJacobian e zs ls p (J p) ∧
        (J p).a00 * (J p).a11 - (J p).a01 * (J p).a10 ≠ 0 := by
  obtain ⟨h1, h2, -⟩ := mpMap_near e zs U ls hne hsort hl
  choose J hJ using map_hasJac h2
  have hJ' : ∀ p, MPJacobian e zs ls p (J p) := fun p => ⟨_, Eventually.of_forall fun q => h1 q.1 q.2, hJ p⟩
  filter_upwards [map_regular_ae h2] with b hb
  have hreg : ∀ p ∈ mpImages e zs ls b, (J p).a00 * (J p).a11 - (J p).a01 * (J p).a10 ≠ 0 := fun p hp =>
    hb p (J p) (Option.some.inj ((h1 p.1 p.2).symm.trans hp)) (hJ p)
  obtain ⟨hfin, h⟩ := C144_parities e zs ls hne hsort U hl M hM hdet b (fun p _ => hJ' p) hreg
  have hsplit : (mpImages e zs ls b).ncard =
      {p ∈ mpImages e zs ls b | 0 < (J p).a00 * (J p).a11 - (J p).a01 * (J p).a10}.ncard +
      {p ∈ mpImages e zs ls b | (J p).a00 * (J p).a11 - (J p).a01 * (J p).a10 < 0}.ncard := by
    rw [← Set.ncard_union_eq ?_ (hfin.subset fun p hp => hp.1) (hfin.subset fun p hp => hp.1)]
    · congr 1
      ext p
      refine ⟨fun hp => ?_, fun hp => hp.elim (fun h => h.1) fun h => h.1⟩
      exact (lt_or_gt_of_ne (hreg p hp)).elim (fun h => Or.inr ⟨hp, h⟩) fun h => Or.inl ⟨hp, h⟩
    · rw [Set.disjoint_left]
      exact fun p h1 h2 => lt_asymm h1.2 h2.2
  refine ⟨hfin, ?_, J, fun p hp => ⟨hJ' p, hreg p hp⟩⟩
  rw [hsplit]
  split_ifs at h <;> omega

/-! ### Lenses of the package -/

theorem linearFar_plane (e : MPEnv ℝ) (zs : ℝ) {l : ThinLensFn ℝ} {U : ℝ × ℝ →L[ℝ] ℝ × ℝ} (h : LinearFar l.reduced U) :
    LinearFar (l.plane e zs).alpha ((e.angDist zs / e.angDist12 l.z zs) • U) := by
  obtain ⟨h1, C, hC⟩ := h
  set k := e.angDist zs / e.angDist12 l.z zs with hk
  have e1 : ∀ x y, (l.plane e zs).alpha x y = k • l.reduced x y := fun x y => rfl
  refine ⟨?_, |k| * C, fun p => ?_⟩
  · simp only [e1]
    exact (contDiff_const (c := k)).smul h1
  · rw [e1, smul_apply, ← smul_sub, norm_smul]
    exact mul_le_mul_of_nonneg_left (hC p) (abs_nonneg _)

theorem linearFar_bounded {d : ℝ → ℝ → ℝ × ℝ} {c : ℝ × ℝ} {B : ℝ} (h1 : ContDiff ℝ 1 fun p : ℝ × ℝ => d p.1 p.2)
    (h2 : Reach d c 0 B 0) : LinearFar d 0 := by
  refine ⟨h1, B, fun p => ?_⟩
  have h := h2 p (Real.sqrt_nonneg _)
  rw [zero_mul, add_zero] at h
  rw [zero_apply, sub_zero, Prod.norm_def, max_le_iff]
  refine ⟨le_trans ?_ h, le_trans ?_ h⟩
  · rw [Real.norm_eq_abs, ← Real.sqrt_sq_eq_abs, len2]
    exact Real.sqrt_le_sqrt (le_add_of_nonneg_right (sq_nonneg _))
  · rw [Real.norm_eq_abs, ← Real.sqrt_sq_eq_abs, len2]
    exact Real.sqrt_le_sqrt (le_add_of_nonneg_left (sq_nonneg _))

/-- Lenses of bounded strength, such as softened isothermal spheres and point masses and cored isothermal ellipsoids, on
any number of planes: almost every source has an odd number of images, with one more of positive parity than of negative
parity. -/
theorem C144_bounded (e : MPEnv ℝ) (zs : ℝ) (hr : e.radToArcsec ≠ 0) (hd : GrowingDist e.dist) (ls : List (ThinLensFn ℝ))
    (hne : ls ≠ []) (hsort : ls.Pairwise fun l m => l.z ≤ m.z) (hb : ∀ l ∈ ls, 0 < l.z ∧ l.z < zs)
    (hl : ∀ l ∈ ls, LinearFar l.reduced 0) :
    ∀ᵐ b : ℝ × ℝ, (mpImages e zs (ls.map (ThinLensFn.plane e zs)) b).Finite ∧
      (mpImages e zs (ls.map (ThinLensFn.plane e zs)) b).ncard % 2 = 1 ∧
      ∃ J : ℝ × ℝ → M22 ℝ, (∀ p ∈ mpImages e zs (ls.map (ThinLensFn.plane e zs)) b,
        MPJacobian e zs (ls.map (ThinLensFn.plane e zs)) p (J p)) ∧
        {p ∈ mpImages e zs (ls.map (ThinLensFn.plane e zs)) b |
          0 < (J p).a00 * (J p).a11 - (J p).a01 * (J p).a10}.ncard =
        {p ∈ mpImages e zs (ls.map (ThinLensFn.plane e zs)) b |
          (J p).a00 * (J p).a11 - (J p).a01 * (J p).a10 < 0}.ncard + 1 := by
  have hzs : 0 < zs := by
    obtain ⟨l, hl⟩ := List.exists_mem_of_ne_nil ls hne
    exact (hb l hl).1.trans (hb l hl).2
  set P := ls.map (ThinLensFn.plane e zs) with hP
  have hne' : P ≠ [] := by simpa [hP] using hne
  have hs' : SortedByZ P := planes_sorted e zs ls hsort
  have hbt : Between e.dist P zs := planes_between e zs hd hzs ls hb
  have hfar : ∀ l ∈ P, LinearFar l.alpha ((fun _ => 0 : MPlane ℝ → ℝ × ℝ →L[ℝ] ℝ × ℝ) l) := by
    intro l hl'
    obtain ⟨m, hm, rfl⟩ := List.mem_map.1 hl'
    have := linearFar_plane e zs (hl m hm)
    rwa [smul_zero] at this
  have hM : ∀ x y, mpRaytrace e zs (P.map (linPlane fun _ => 0)) x y =
      some ((⟨1, 0, 0, 1⟩ : M22 ℝ).a00 * x + (⟨1, 0, 0, 1⟩ : M22 ℝ).a01 * y,
        (⟨1, 0, 0, 1⟩ : M22 ℝ).a10 * x + (⟨1, 0, 0, 1⟩ : M22 ℝ).a11 * y) := by
    intro x y
    rw [C16_lens_equation e zs hr (P.map (linPlane fun _ => 0)) (by simpa using hne') (by
        unfold SortedByZ
        rw [List.pairwise_map]
        exact hs') (by
        refine ⟨fun l hl => ?_, hbt.2⟩
        obtain ⟨m, hm, rfl⟩ := List.mem_map.1 hl
        exact hbt.1 m hm) x y (fun _ => (x, y)) (by
        intro z _
        constructor
        · rw [List.sum_eq_zero, sub_zero]
          intro a ha
          obtain ⟨l, hl, rfl⟩ := List.mem_map.1 ha
          obtain ⟨m, -, rfl⟩ := List.mem_map.1 (List.mem_filter.1 hl).1
          simp [linPlane]
        · rw [List.sum_eq_zero, sub_zero]
          intro a ha
          obtain ⟨l, hl, rfl⟩ := List.mem_map.1 ha
          obtain ⟨m, -, rfl⟩ := List.mem_map.1 (List.mem_filter.1 hl).1
          simp [linPlane])]
    simp
  filter_upwards [C144_odd e zs P hne' hs' _ hfar _ hM (by norm_num)] with b hb'
  obtain ⟨h1, h2, J, hJ⟩ := hb'
  refine ⟨h1, h2, J, fun p hp => (hJ p hp).1, ?_⟩
  have h3 := (C144_parities e zs P hne' hs' _ hfar _ hM (by norm_num) b (fun p hp => (hJ p hp).1)
    fun p hp => (hJ p hp).2).2
  rw [if_pos (by norm_num)] at h3
  omega

theorem C144_soft_sis (x0 y0 Rein s : ℝ) (hR : 0 ≤ Rein) (hs : 0 < s) : LinearFar (sisDeflection x0 y0 Rein s) 0 :=
  linearFar_bounded (sis_contDiff x0 y0 Rein s hs) (C128_sis x0 y0 Rein s hR hs.le)

theorem C144_soft_point (x0 y0 Rein s : ℝ) (hs : 0 < s) : LinearFar (pointDeflection x0 y0 Rein s) 0 :=
  linearFar_bounded (point_contDiff x0 y0 Rein s hs) (point_reach x0 y0 Rein s hs)

theorem C144_cored_sie (x0 y0 q phi Rein s : ℝ) (hq : 0 < q) (hq1 : q < 1) (hR : 0 ≤ Rein) (hs : 0 < s) :
    LinearFar (sieDeflection x0 y0 q phi Rein s) 0 :=
  linearFar_bounded (sie_contDiff x0 y0 q phi Rein s hq hq1 hs) (C128_sie x0 y0 q phi Rein s hq hq1 hR hs.le)

/-- Two planes. -/
example : ∀ᵐ b : ℝ × ℝ, (mpImages lineEnv 4 ([⟨1, sieDeflection 0 0 (1 / 2) 0 1 (1 / 10), fun _ _ => 0⟩,
    ⟨2, pointDeflection 1 0 1 (1 / 100), fun _ _ => 0⟩].map (ThinLensFn.plane lineEnv 4)) b).ncard % 2 = 1 := by
  have h := C144_bounded lineEnv 4 (by norm_num [lineEnv]) lineEnv_growing
    [⟨1, sieDeflection 0 0 (1 / 2) 0 1 (1 / 10), fun _ _ => 0⟩, ⟨2, pointDeflection 1 0 1 (1 / 100), fun _ _ => 0⟩]
    (by simp) (by norm_num) (by norm_num) (by
      rw [List.forall_mem_cons, List.forall_mem_singleton]
      exact ⟨C144_cored_sie 0 0 (1 / 2) 0 1 (1 / 10) (by norm_num) (by norm_num) (by norm_num) (by norm_num),
        C144_soft_point 1 0 1 (1 / 100) (by norm_num)⟩)
  filter_upwards [h] with b hb
  exact hb.2.1

/-- A strong sheet on a single plane inverts: the other sign. -/
example (z zs : ℝ) (e : MPEnv ℝ) (b : ℝ × ℝ) (U : MPlane ℝ → ℝ × ℝ →L[ℝ] ℝ × ℝ) (M : M22 ℝ) (a : ℝ → ℝ → ℝ × ℝ)
    (ha : LinearFar a (U ⟨z, a, fun _ _ => 0⟩))
    (hM : ∀ x y, mpRaytrace e zs [linPlane U ⟨z, a, fun _ _ => 0⟩] x y = some (M.a00 * x + M.a01 * y, M.a10 * x + M.a11 * y))
    (hdet : M.a00 * M.a11 - M.a01 * M.a10 < 0) {J : ℝ × ℝ → M22 ℝ}
    (hJ : ∀ p ∈ mpImages e zs [⟨z, a, fun _ _ => 0⟩] b, MPJacobian e zs [⟨z, a, fun _ _ => 0⟩] p (J p))
    (hreg : ∀ p ∈ mpImages e zs [⟨z, a, fun _ _ => 0⟩] b, (J p).a00 * (J p).a11 - (J p).a01 * (J p).a10 ≠ 0) :
    (mpImages e zs [⟨z, a, fun _ _ => 0⟩] b).Nonempty := by
  by_contra hne
  rw [Set.not_nonempty_iff_eq_empty] at hne
  have h := (C144_parities e zs [⟨z, a, fun _ _ => 0⟩] (by simp) (by simp [SortedByZ]) U (by simpa using ha) M hM hdet.ne b hJ
    hreg).2
  rw [if_neg (not_lt.2 hdet.le), hne] at h
  simp at h

end Caustics

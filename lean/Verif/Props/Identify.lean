import Verif.Lemmas.Ellipse
import Verif.Props.SIE
import Verif.Props.Light
import Verif.Props.Admissible
import Verif.Props.Mirror
import Verif.Props.Multipole

/-! C119: which parameters describe the same lens or the same source. -/

open Real Filter

namespace Caustics

/-! ### Elliptical lenses and sources -/

theorem frame_form (x y x0 y0 q phi : ℝ) :
    q ^ 2 * (translateRotate x y x0 y0 (some phi)).1 ^ 2 + (translateRotate x y x0 y0 (some phi)).2 ^ 2 =
      ellipseForm q phi (x - x0) (y - y0) := rfl

theorem centre_ne {x y x0 y0 : ℝ} (h : (x, y) ≠ (x0, y0)) : (x - x0, y - y0) ≠ (0, 0) := by
  simpa only [ne_eq, Prod.mk.injEq, sub_eq_zero] using h

theorem sieConvergence_form (x0 y0 q phi Rein x y : ℝ) :
    sieConvergence x0 y0 q phi Rein 0 x y = 0.5 * √q * Rein / √(ellipseForm q phi (x - x0) (y - y0)) := by
  simp only [sieConvergence]
  rw [← frame_form]
  ring_nf

/-- Two isothermal ellipsoids have the same convergence exactly if they have the same centre, axis ratio and Einstein
radius and position angles that differ by a multiple of `π`; the angle of a circular one is irrelevant. -/
theorem C119_sie_convergence (x0 y0 q phi Rein x0' y0' q' phi' Rein' : ℝ) (hq : 0 < q) (hq1 : q ≤ 1) (hq' : 0 < q')
    (hq1' : q' ≤ 1) (hR : 0 < Rein) (hR' : 0 < Rein') :
    (∀ x y, (x, y) ≠ (x0, y0) → (x, y) ≠ (x0', y0') →
        sieConvergence x0 y0 q phi Rein 0 x y = sieConvergence x0' y0' q' phi' Rein' 0 x y) ↔
      x0' = x0 ∧ y0' = y0 ∧ q' = q ∧ Rein' = Rein ∧ (q = 1 ∨ ∃ k : ℤ, phi' = phi + k * π) := by
  constructor
  · intro h
    have hA : 0 < √q * Rein := mul_pos (sqrt_pos.2 hq) hR
    have hA' : 0 < √q' * Rein' := mul_pos (sqrt_pos.2 hq') hR'
    obtain ⟨e1, e2, -, eK, e3, e4⟩ := ellipse_pow_inj (K := √q' * Rein' / (√q * Rein)) (a := 1 / 2) (b := 1 / 2)
      (phi := phi) (phi' := phi') (x0 := x0) (y0 := y0) (x0' := x0') (y0' := y0')
      (by positivity) (by norm_num) (by norm_num) hq hq1 hq' hq1' (fun x y h1 h2 => by
        have p1 := sqrt_pos.2 (ellipseForm_pos hq phi (centre_ne h1))
        have p2 := sqrt_pos.2 (ellipseForm_pos hq' phi' (centre_ne h2))
        have := h x y h1 h2
        rw [sieConvergence_form, sieConvergence_form, div_eq_div_iff p1.ne' p2.ne'] at this
        rw [← sqrt_eq_rpow, ← sqrt_eq_rpow, div_mul_eq_mul_div, div_eq_iff hA.ne']
        linear_combination -2 * this)
    refine ⟨e1, e2, e3, ?_, e4⟩
    rw [div_eq_one_iff_eq hA.ne', e3] at eK
    exact mul_left_cancel₀ (sqrt_pos.2 hq).ne' eK
  · rintro ⟨rfl, rfl, rfl, rfl, h⟩ x y - -
    rw [sieConvergence_form, sieConvergence_form]
    rcases h with rfl | ⟨k, rfl⟩
    · rw [ellipseForm_one phi phi']
    · rw [ellipseForm_add]

theorem hasKappa_of_eq {v w : ℝ → ℝ → ℝ × ℝ} {k k' x y : ℝ} {S : Set (ℝ × ℝ)} (hS : IsOpen S) (hm : (x, y) ∈ S)
    (h : ∀ p ∈ S, v p.1 p.2 = w p.1 p.2) (hv : HasKappa v k x y) (hw : HasKappa w k' x y) : k = k' := by
  obtain ⟨a, b, c, hj, rfl⟩ := hv
  obtain ⟨a', b', c', hj', rfl⟩ := hw
  have hev : ∀ᶠ p : ℝ × ℝ in nhds (x, y), v p.1 p.2 = w p.1 p.2 := (hS.eventually_mem hm).mono h
  have h1 := HasGrad.unique hj.1 (HasFDerivAt.congr_of_eventuallyEq hj'.1 (hev.mono fun p hp => by simp only [hp]))
  have h2 := HasGrad.unique hj.2 (HasFDerivAt.congr_of_eventuallyEq hj'.2 (hev.mono fun p hp => by simp only [hp]))
  rw [h1.1, h2.2]

/-- The position angle of a lens with elliptical symmetry is cyclic with the declared period. -/
theorem translateRotate_turn (x y x0 y0 phi : ℝ) (k : ℤ) :
    translateRotate x y x0 y0 (some (phi + k * π)) =
      ((-1) ^ k * (translateRotate x y x0 y0 (some phi)).1, (-1) ^ k * (translateRotate x y x0 y0 (some phi)).2) := by
  simp only [translateRotate, cos_add_int_mul_pi, sin_add_int_mul_pi]
  ext <;> simp only <;> ring

theorem neg_one_zpow_cases (k : ℤ) : ((-1 : ℝ) ^ k = 1) ∨ ((-1 : ℝ) ^ k = -1) := by
  rcases Int.even_or_odd k with h | h
  · exact Or.inl h.neg_one_zpow
  · exact Or.inr h.neg_one_zpow

theorem sieDeflection_turn (x0 y0 q phi Rein s x y : ℝ) (k : ℤ) :
    sieDeflection x0 y0 q (phi + k * π) Rein s x y = sieDeflection x0 y0 q phi Rein s x y := by
  simp only [sieDeflection, translateRotate_turn, derotate, cos_add_int_mul_pi, sin_add_int_mul_pi]
  rcases neg_one_zpow_cases k with h | h
  · simp only [h, one_mul]
  · simp only [h, neg_mul, one_mul, even_two.neg_pow, mul_neg, neg_div, arctan_neg, artanh_odd]
    ext <;> simp only <;> ring

/-- Two isothermal ellipsoids deflect alike exactly if they have the same parameters, the angle modulo `π`. -/
theorem C119_sie (x0 y0 q phi Rein x0' y0' q' phi' Rein' : ℝ) (hq : 0 < q) (hq1 : q < 1) (hq' : 0 < q')
    (hq1' : q' < 1) (hR : 0 < Rein) (hR' : 0 < Rein') :
    (∀ x y, (x, y) ≠ (x0, y0) → (x, y) ≠ (x0', y0') →
        sieDeflection x0 y0 q phi Rein 0 x y = sieDeflection x0' y0' q' phi' Rein' 0 x y) ↔
      x0' = x0 ∧ y0' = y0 ∧ q' = q ∧ Rein' = Rein ∧ ∃ k : ℤ, phi' = phi + k * π := by
  constructor
  · intro h
    have hS : IsOpen ({(x0, y0), (x0', y0')} : Set (ℝ × ℝ))ᶜ := (Set.toFinite _).isClosed.isOpen_compl
    have := (C119_sie_convergence x0 y0 q phi Rein x0' y0' q' phi' Rein' hq hq1.le hq' hq1'.le hR hR').1
      fun x y h1 h2 => hasKappa_of_eq hS (by simp [h1, h2]) (fun p hp => by
        simp only [Set.mem_compl_iff, Set.mem_insert_iff, Set.mem_singleton_iff, not_or] at hp
        exact h p.1 p.2 hp.1 hp.2)
        (C24_sie x0 y0 q phi Rein 0 hq hq1 le_rfl x y (.inr h1)) (C24_sie x0' y0' q' phi' Rein' 0 hq' hq1' le_rfl x y (.inr h2))
    obtain ⟨e1, e2, e3, e4, e5⟩ := this
    exact ⟨e1, e2, e3, e4, e5.resolve_left hq1.ne⟩
  · rintro ⟨rfl, rfl, rfl, rfl, k, rfl⟩ x y - -
    exact (sieDeflection_turn _ _ _ _ _ _ _ _ k).symm

/-- The same for the elliptical power law, whose slope is found as well. -/
theorem C119_epl (x0 y0 q phi Rein t x0' y0' q' phi' Rein' t' : ℝ) (hq : 0 < q) (hq1 : q ≤ 1) (hq' : 0 < q')
    (hq1' : q' ≤ 1) (hR : 0 < Rein) (hR' : 0 < Rein') (ht : 0 < t) (ht2 : t < 2) (ht' : 0 < t') (ht2' : t' < 2) :
    (∀ x y, (x, y) ≠ (x0, y0) → (x, y) ≠ (x0', y0') →
        eplConvergence x0 y0 q phi Rein t 0 x y = eplConvergence x0' y0' q' phi' Rein' t' 0 x y) ↔
      x0' = x0 ∧ y0' = y0 ∧ q' = q ∧ Rein' = Rein ∧ t' = t ∧ (q = 1 ∨ ∃ k : ℤ, phi' = phi + k * π) := by
  have hform : ∀ x0 y0 q phi Rein t x y, eplConvergence x0 y0 q phi Rein t 0 x y =
      (2 - t) / 2 * (Rein * √q / √(ellipseForm q phi (x - x0) (y - y0))) ^ t := by
    intro x0 y0 q phi Rein t x y
    simp only [eplConvergence]
    rw [← frame_form, zero_pow two_ne_zero, add_zero]
  constructor
  · intro h
    have hA : 0 < (2 - t) / 2 * (Rein * √q) ^ t := mul_pos (by linarith) (rpow_pos_of_pos (mul_pos hR (sqrt_pos.2 hq)) _)
    have hA' : 0 < (2 - t') / 2 * (Rein' * √q') ^ t' :=
      mul_pos (by linarith) (rpow_pos_of_pos (mul_pos hR' (sqrt_pos.2 hq')) _)
    have hp : ∀ {E t : ℝ}, 0 < E → √E ^ t = E ^ (t / 2) := fun {E t} hE => by
      rw [sqrt_eq_rpow, ← rpow_mul hE.le, one_div_mul_eq_div]
    obtain ⟨e1, e2, e5, eK, e3, e4⟩ := ellipse_pow_inj
      (K := ((2 - t') / 2 * (Rein' * √q') ^ t') / ((2 - t) / 2 * (Rein * √q) ^ t)) (a := t / 2) (b := t' / 2)
      (phi := phi) (phi' := phi') (x0 := x0) (y0 := y0) (x0' := x0') (y0' := y0')
      (by positivity) (by linarith) (by linarith) hq hq1 hq' hq1' (fun x y h1 h2 => by
        have E1 := ellipseForm_pos hq phi (centre_ne h1)
        have E2 := ellipseForm_pos hq' phi' (centre_ne h2)
        have := h x y h1 h2
        rw [hform, hform, div_rpow (by positivity) (sqrt_nonneg _), div_rpow (by positivity) (sqrt_nonneg _), hp E1, hp E2,
          ← mul_div_assoc, ← mul_div_assoc, div_eq_div_iff (rpow_pos_of_pos E1 _).ne' (rpow_pos_of_pos E2 _).ne'] at this
        rw [div_mul_eq_mul_div, div_eq_iff hA.ne']
        linear_combination -this)
    have e5' : t' = t := by linarith
    subst e5' e3
    refine ⟨e1, e2, rfl, ?_, rfl, e4⟩
    rw [div_eq_one_iff_eq hA.ne'] at eK
    have h3 := mul_left_cancel₀ (show (2 - t') / 2 ≠ 0 by intro h; linarith) eK
    have h4 := (rpow_left_inj (by positivity) (by positivity) ht'.ne').1 h3
    exact mul_right_cancel₀ (sqrt_pos.2 hq).ne' h4
  · rintro ⟨rfl, rfl, rfl, rfl, rfl, h⟩ x y - -
    rw [hform, hform]
    rcases h with rfl | ⟨k, rfl⟩
    · rw [ellipseForm_one phi phi']
    · rw [ellipseForm_add]

theorem sersic_form {q Re n : ℝ} (hq : 0 < q) (hRe : 0 < Re) (x0 y0 phi Ie x y k : ℝ) :
    brightnessSersic x0 y0 q phi n Re Ie x y k 0 =
      Ie * exp (k - k / ((q * Re) ^ 2) ^ (1 / n / 2) * ellipseForm q phi (x - x0) (y - y0) ^ (1 / n / 2)) := by
  simp only [brightnessSersic, toElliptical, add_zero]
  have hE : 0 ≤ ellipseForm q phi (x - x0) (y - y0) := by unfold ellipseForm; positivity
  have h1 : (translateRotate x y x0 y0 (some phi)).1 ^ 2 + ((translateRotate x y x0 y0 (some phi)).2 / q) ^ 2 =
      ellipseForm q phi (x - x0) (y - y0) / q ^ 2 := by
    rw [← frame_form]; field_simp
  rw [h1]
  have h2 : √(ellipseForm q phi (x - x0) (y - y0) / q ^ 2) / Re =
      (ellipseForm q phi (x - x0) (y - y0) / (q * Re) ^ 2) ^ (1 / 2 : ℝ) := by
    rw [← sqrt_eq_rpow, mul_pow, ← div_div, sqrt_div (by positivity) (Re ^ 2), sqrt_sq hRe.le]
  rw [h2, ← rpow_mul (by positivity), show (1 / 2 : ℝ) * (1 / n) = 1 / n / 2 by ring, div_rpow hE (by positivity)]
  congr 2
  ring

/-- Two Sersic sources look alike exactly if they have the same parameters, the angle modulo `π`. -/
theorem C119_sersic (lenstronomy : Bool) (x0 y0 q phi n Re Ie x0' y0' q' phi' n' Re' Ie' : ℝ) (hq : 0 < q) (hq1 : q ≤ 1)
    (hq' : 0 < q') (hq1' : q' ≤ 1) (hn : 0.36 ≤ n) (hn' : 0.36 ≤ n') (hRe : 0 < Re) (hRe' : 0 < Re') (hI : 0 < Ie)
    (hI' : 0 < Ie') :
    (∀ x y, Sersic.brightness lenstronomy 0 x0 y0 q phi n Re Ie x y =
        Sersic.brightness lenstronomy 0 x0' y0' q' phi' n' Re' Ie' x y) ↔
      x0' = x0 ∧ y0' = y0 ∧ q' = q ∧ n' = n ∧ Re' = Re ∧ Ie' = Ie ∧ (q = 1 ∨ ∃ k : ℤ, phi' = phi + k * π) := by
  set kf : ℝ → ℝ := fun n => if lenstronomy then kLenstronomy n else kSersic n with hkf
  have hb : ∀ x0 y0 q phi n Re Ie x y, Sersic.brightness lenstronomy 0 x0 y0 q phi n Re Ie x y =
      brightnessSersic x0 y0 q phi n Re Ie x y (kf n) 0 := fun _ _ _ _ _ _ _ _ _ => rfl
  have hkp : ∀ {n : ℝ}, 0.36 ≤ n → 0 < kf n := fun {n} hn => by
    obtain ⟨h1, h2⟩ := C46_k_positive hn
    simp only [hkf]
    split <;> assumption
  have hn0 : 0 < n := lt_of_lt_of_le (by norm_num) hn
  have hn0' : 0 < n' := lt_of_lt_of_le (by norm_num) hn'
  constructor
  · intro h
    have hk := hkp hn
    have hk' := hkp hn'
    set b := kf n / ((q * Re) ^ 2) ^ (1 / n / 2) with hbd
    set b' := kf n' / ((q' * Re') ^ 2) ^ (1 / n' / 2) with hbd'
    have hb0 : 0 < b := by positivity
    have hb0' : 0 < b' := by positivity
    have hlog : ∀ x y, log Ie + kf n - b * ellipseForm q phi (x - x0) (y - y0) ^ (1 / n / 2) =
        log Ie' + kf n' - b' * ellipseForm q' phi' (x - x0') (y - y0') ^ (1 / n' / 2) := by
      intro x y
      have := congrArg log (h x y)
      rw [hb, hb, sersic_form hq hRe, sersic_form hq' hRe', log_mul hI.ne' (exp_ne_zero _), log_mul hI'.ne' (exp_ne_zero _),
        log_exp, log_exp] at this
      linarith
    have hE : ∀ q phi u v, 0 ≤ ellipseForm q phi u v := fun q phi u v => by unfold ellipseForm; positivity
    have hp : 0 < 1 / n / 2 := by positivity
    have hp' : 0 < 1 / n' / 2 := by positivity
    have hL : log Ie + kf n = log Ie' + kf n' := by
      have h1 := hlog x0 y0
      have h2 := hlog x0' y0'
      rw [sub_self, sub_self, ellipseForm_zero, zero_rpow hp.ne', mul_zero, sub_zero] at h1
      rw [sub_self, sub_self, ellipseForm_zero, zero_rpow hp'.ne', mul_zero, sub_zero] at h2
      have h3 := mul_nonneg hb0.le (rpow_nonneg (hE q phi (x0' - x0) (y0' - y0)) (1 / n / 2))
      have h4 := mul_nonneg hb0'.le (rpow_nonneg (hE q' phi' (x0 - x0') (y0 - y0')) (1 / n' / 2))
      linarith
    obtain ⟨e1, e2, e5, eK, e3, e4⟩ := ellipse_pow_inj (K := b / b') (a := 1 / n / 2) (b := 1 / n' / 2)
      (phi := phi) (phi' := phi') (x0 := x0) (y0 := y0) (x0' := x0') (y0' := y0')
      (by positivity) hp hp' hq hq1 hq' hq1' (fun x y _ _ => by
        rw [div_mul_eq_mul_div, div_eq_iff hb0'.ne']
        linear_combination hL - hlog x y)
    have hnn : n' = n := by
      field_simp at e5
      linarith
    subst hnn e3
    refine ⟨e1, e2, rfl, rfl, ?_, ?_, e4⟩
    · rw [div_eq_one_iff_eq hb0'.ne', hbd, hbd', div_eq_div_iff (by positivity) (by positivity)] at eK
      have h3 := mul_left_cancel₀ hk.ne' eK
      have h4 := (rpow_left_inj (by positivity) (by positivity) hp.ne').1 h3
      have h5 := (pow_left_inj₀ (by positivity) (by positivity) two_ne_zero).1 h4
      exact mul_left_cancel₀ hq.ne' h5
    · exact (log_injOn_pos hI hI' (by linarith)).symm
  · rintro ⟨rfl, rfl, rfl, rfl, rfl, rfl, h⟩ x y
    rw [hb, hb, sersic_form hq hRe, sersic_form hq hRe]
    rcases h with rfl | ⟨k, rfl⟩
    · rw [ellipseForm_one phi phi']
    · rw [ellipseForm_add]

/-! ### Circular lenses -/

/-- Two lenses that deflect towards their centres and agree have the same centre. -/
theorem centre_unique {α β : ℝ → ℝ → ℝ × ℝ} {x0 y0 x0' y0' : ℝ}
    (hα : ∀ x y, (x, y) ≠ (x0, y0) → ∃ c, 0 < c ∧ α x y = (c * (x - x0), c * (y - y0)))
    (hβ : ∀ x y, (x, y) ≠ (x0', y0') → ∃ c, 0 < c ∧ β x y = (c * (x - x0'), c * (y - y0')))
    (h : ∀ x y, (x, y) ≠ (x0, y0) → (x, y) ≠ (x0', y0') → α x y = β x y) : x0' = x0 ∧ y0' = y0 := by
  by_contra hne
  have h1 : ((x0 + x0') / 2, (y0 + y0') / 2) ≠ (x0, y0) := by
    intro e; simp only [Prod.mk.injEq] at e; exact hne ⟨by linarith, by linarith⟩
  have h2 : ((x0 + x0') / 2, (y0 + y0') / 2) ≠ (x0', y0') := by
    intro e; simp only [Prod.mk.injEq] at e; exact hne ⟨by linarith, by linarith⟩
  obtain ⟨c, hc, e1⟩ := hα _ _ h1
  obtain ⟨d, hd, e2⟩ := hβ _ _ h2
  have := h _ _ h1 h2
  rw [e1, e2] at this
  simp only [Prod.mk.injEq] at this
  have hp : 0 < c + d := by linarith
  have a1 : (c + d) * (x0' - x0) = 0 := by linear_combination 2 * this.1
  have a2 : (c + d) * (y0' - y0) = 0 := by linear_combination 2 * this.2
  have b1 := (mul_eq_zero.1 a1).resolve_left hp.ne'
  have b2 := (mul_eq_zero.1 a2).resolve_left hp.ne'
  exact hne ⟨by linarith, by linarith⟩

theorem C119_sis (x0 y0 Rein x0' y0' Rein' : ℝ) (hR : 0 < Rein) (hR' : 0 < Rein') :
    (∀ x y, (x, y) ≠ (x0, y0) → (x, y) ≠ (x0', y0') → sisDeflection x0 y0 Rein 0 x y = sisDeflection x0' y0' Rein' 0 x y) ↔
      x0' = x0 ∧ y0' = y0 ∧ Rein' = Rein := by
  have hdir : ∀ x0 y0 Rein, 0 < Rein → ∀ x y, (x, y) ≠ (x0, y0) →
      ∃ c, 0 < c ∧ sisDeflection x0 y0 Rein 0 x y = (c * (x - x0), c * (y - y0)) := by
    intro x0 y0 Rein hR x y hxy
    have := radius_pos (sub_ne_zero_or hxy)
    refine ⟨Rein / √((x - x0) ^ 2 + (y - y0) ^ 2), by positivity, ?_⟩
    simp only [sisDeflection, translateRotate, add_zero]
    ext <;> simp only <;> ring
  refine ⟨fun h => ?_, by rintro ⟨rfl, rfl, rfl⟩ _ _ _ _; rfl⟩
  obtain ⟨rfl, rfl⟩ := centre_unique (hdir x0 y0 Rein hR) (hdir x0' y0' Rein' hR') h
  refine ⟨rfl, rfl, ?_⟩
  have := h (x0' + 1) y0' (by simp) (by simp)
  simpa [sisDeflection, translateRotate] using this.symm

theorem C119_point (x0 y0 Rein x0' y0' Rein' : ℝ) (hR : 0 < Rein) (hR' : 0 < Rein') :
    (∀ x y, (x, y) ≠ (x0, y0) → (x, y) ≠ (x0', y0') →
        pointDeflection x0 y0 Rein 0 x y = pointDeflection x0' y0' Rein' 0 x y) ↔
      x0' = x0 ∧ y0' = y0 ∧ Rein' = Rein := by
  have hdir : ∀ x0 y0 Rein, 0 < Rein → ∀ x y, (x, y) ≠ (x0, y0) →
      ∃ c, 0 < c ∧ pointDeflection x0 y0 Rein 0 x y = (c * (x - x0), c * (y - y0)) := by
    intro x0 y0 Rein hR x y hxy
    have := radius_pos (sub_ne_zero_or hxy)
    refine ⟨Rein ^ 2 / √((x - x0) ^ 2 + (y - y0) ^ 2) ^ 2, by positivity, ?_⟩
    simp only [pointDeflection, translateRotate, add_zero]
    ext <;> simp only <;> ring
  refine ⟨fun h => ?_, by rintro ⟨rfl, rfl, rfl⟩ _ _ _ _; rfl⟩
  obtain ⟨rfl, rfl⟩ := centre_unique (hdir x0 y0 Rein hR) (hdir x0' y0' Rein' hR') h
  refine ⟨rfl, rfl, ?_⟩
  have := h (x0' + 1) y0' (by simp) (by simp)
  simp only [pointDeflection, translateRotate, add_sub_cancel_left, sub_self, Prod.mk.injEq] at this
  norm_num at this
  exact ((pow_left_inj₀ hR.le hR'.le two_ne_zero).1 this).symm

/-! NFW -/

theorem log_slope_zero {c d : ℝ} {f : ℝ → ℝ} (hf : Tendsto f atTop (nhds 0)) (h : ∀ᶠ r in atTop, c * log r + d = f r) :
    c = 0 ∧ d = 0 := by
  have h1 : Tendsto (fun r => c * log r + d) atTop (nhds 0) := hf.congr' (h.mono fun r hr => hr.symm)
  have h2 : Tendsto (fun r => c * log (2 * r) + d) atTop (nhds 0) :=
    h1.comp (tendsto_id.const_mul_atTop (show (0 : ℝ) < 2 by norm_num))
  have h3 := h2.sub h1
  have h4 : Tendsto (fun r : ℝ => c * log (2 * r) + d - (c * log r + d)) atTop (nhds (c * log 2)) := by
    refine tendsto_const_nhds.congr' ((eventually_gt_atTop 0).mono fun r hr => ?_)
    simp only [log_mul two_ne_zero hr.ne']; ring
  have hc : c = 0 := by
    have := tendsto_nhds_unique h4 h3
    rw [sub_zero] at this
    exact (mul_eq_zero.1 this).resolve_right (log_pos one_lt_two).ne'
  subst hc
  refine ⟨rfl, ?_⟩
  simp only [zero_mul, zero_add] at h1
  exact tendsto_nhds_unique tendsto_const_nhds h1

theorem ringF_tendsto : Tendsto ringF atTop (nhds 0) := by
  have hu : Tendsto (fun x : ℝ => π / √(x ^ 2 - 1)) atTop (nhds 0) := by
    refine Tendsto.const_div_atTop ?_ π
    refine tendsto_sqrt_atTop.comp ?_
    exact tendsto_atTop_add_const_right _ _ (tendsto_pow_atTop two_ne_zero)
  refine squeeze_zero' ((eventually_gt_atTop 1).mono fun x hx => ?_) ((eventually_gt_atTop 1).mono fun x hx => ?_) hu
  · rw [ringF_gt hx]; exact div_nonneg (arccos_nonneg _) (sqrt_nonneg _)
  · rw [ringF_gt hx]; exact div_le_div_of_nonneg_right (arccos_le_pi _) (sqrt_nonneg _)

/-- Proportional NFW mass profiles have the same scale. -/
theorem nfwH_inj {A B p q : ℝ} (hA : 0 < A) (hp : 0 < p) (hq : 0 < q)
    (h : ∀ r, 0 < r → A * nfwH (r / p) = B * nfwH (r / q)) : A = B ∧ p = q := by
  have hd : ∀ {s : ℝ}, 0 < s → Tendsto (fun r : ℝ => r / s) atTop atTop := fun hs => tendsto_id.atTop_div_const hs
  have hev : ∀ᶠ r in atTop, (A - B) * log r + (B * log (2 * q) - A * log (2 * p)) = B * ringF (r / q) - A * ringF (r / p) := by
    filter_upwards [eventually_gt_atTop 0, (hd hp).eventually_gt_atTop 2, (hd hq).eventually_gt_atTop 2] with r h0 h1 h2
    have e := h r h0
    rw [nfwH_eq (by rw [lt_abs]; left; norm_num at h1 ⊢; linarith), nfwH_eq (by rw [lt_abs]; left; norm_num at h2 ⊢; linarith),
      div_div, div_div, log_div h0.ne' (by positivity), log_div h0.ne' (by positivity), mul_comm p 2, mul_comm q 2] at e
    linear_combination e
  have hl : Tendsto (fun r => B * ringF (r / q) - A * ringF (r / p)) atTop (nhds 0) := by
    have := ((ringF_tendsto.comp (hd hq)).const_mul B).sub ((ringF_tendsto.comp (hd hp)).const_mul A)
    simpa using this
  obtain ⟨h1, h2⟩ := log_slope_zero hl hev
  have hAB : A = B := by linarith
  subst hAB
  refine ⟨rfl, ?_⟩
  have h3 := mul_left_cancel₀ hA.ne' (show A * log (2 * q) = A * log (2 * p) by linarith)
  have := log_injOn_pos (show 0 < 2 * q by positivity) (show 0 < 2 * p by positivity) h3
  linarith

/-- The mass function of the NFW profile. -/
noncomputable def nfwMu (c : ℝ) : ℝ := log (1 + c) - c / (1 + c)

theorem nfwMu_deriv {c : ℝ} (hc : 0 < c) : HasDerivAt nfwMu (c / (1 + c) ^ 2) c := by
  have h1 : HasDerivAt (fun c : ℝ => 1 + c) 1 c := (hasDerivAt_id c).const_add 1
  have h := (h1.log (by positivity)).sub ((hasDerivAt_id c).div h1 (by positivity))
  refine h.congr_deriv ?_
  simp only [id]
  field_simp
  ring

theorem nfwMu_lower {c : ℝ} (hc : 0 < c) : c ^ 2 / (2 * (1 + c) ^ 2) < nfwMu c := by
  have hd : ∀ x : ℝ, 0 < x → HasDerivAt (fun x => nfwMu x - x ^ 2 / (2 * (1 + x) ^ 2)) (x ^ 2 / (1 + x) ^ 3) x := by
    intro x hx
    have h1 : HasDerivAt (fun c : ℝ => 1 + c) 1 x := (hasDerivAt_id x).const_add 1
    have h2 : 2 * (1 + x) ^ 2 ≠ 0 := by positivity
    have h := (nfwMu_deriv hx).sub (((hasDerivAt_pow 2 x).div ((h1.pow 2).const_mul 2) h2))
    refine h.congr_deriv ?_
    simp
    field_simp
    ring
  have hcont : ContinuousOn (fun x => nfwMu x - x ^ 2 / (2 * (1 + x) ^ 2)) (Set.Ici 0) := by
    intro x hx
    have hx' : (0 : ℝ) ≤ x := hx
    have h1 : 1 + x ≠ 0 := by positivity
    have h2 : 2 * (1 + x) ^ 2 ≠ 0 := by positivity
    unfold nfwMu
    refine ContinuousAt.continuousWithinAt ?_
    refine ((ContinuousAt.log (by fun_prop) h1).sub (ContinuousAt.div (by fun_prop) (by fun_prop) h1)).sub
      (ContinuousAt.div (by fun_prop) (by fun_prop) h2)
  have hm := strictMonoOn_of_deriv_pos (convex_Ici (0 : ℝ)) hcont (fun x hx => by
    rw [interior_Ici] at hx
    have hx' : (0 : ℝ) < x := hx
    rw [(hd x hx').deriv]; positivity)
  have := hm (Set.self_mem_Ici) hc.le hc
  simp [nfwMu] at this
  simp only [nfwMu]
  linarith

/-- The scale density grows with the concentration. -/
theorem nfwMu_cube {c d : ℝ} (hc : 0 < c) (h : c < d) : nfwMu d * c ^ 3 < nfwMu c * d ^ 3 := by
  have hder : ∀ x : ℝ, 0 < x → HasDerivAt (fun x => nfwMu c * x ^ 3 - nfwMu x * c ^ 3)
      (nfwMu c * (3 * x ^ 2) - x / (1 + x) ^ 2 * c ^ 3) x := by
    intro x hx
    have := ((hasDerivAt_pow 3 x).const_mul (nfwMu c)).sub ((nfwMu_deriv hx).mul_const (c ^ 3))
    exact this.congr_deriv (by simp)
  have hm := strictMonoOn_of_deriv_pos (convex_Ici c) (fun x hx =>
      (hder x (hc.trans_le hx)).continuousAt.continuousWithinAt) (fun x hx => by
    rw [interior_Ici] at hx
    have hx' : c < x := hx
    have hx0 : 0 < x := hc.trans hx'
    rw [(hder x hx0).deriv, sub_pos]
    have hl := nfwMu_lower hc
    rw [div_lt_iff₀ (by positivity)] at hl
    rw [div_mul_eq_mul_div, div_lt_iff₀ (by positivity)]
    have h1 : c ^ 2 < nfwMu c * (2 * (1 + x) ^ 2) := by
      refine hl.trans ?_
      have : 0 < nfwMu c := by
        have := div_pos (pow_pos hc 2) (show 0 < 2 * (1 + c) ^ 2 by positivity)
        exact this.trans (nfwMu_lower hc)
      gcongr
    have h2 : x * c ^ 3 ≤ x * (x * c ^ 2) := by
      have : c ^ 3 ≤ x * c ^ 2 := by nlinarith [pow_pos hc 2]
      exact mul_le_mul_of_nonneg_left this hx0.le
    have h3 : x * (x * c ^ 2) < x * (x * (nfwMu c * (2 * (1 + x) ^ 2))) := by gcongr
    have h4 : 0 < nfwMu c * (1 + x) ^ 2 := by nlinarith [pow_pos hc 2]
    nlinarith [mul_pos (pow_pos hx0 2) h4])
  have := hm (Set.self_mem_Ici) h.le h
  simp only at this
  linarith

theorem nfwMu_pos {c : ℝ} (hc : 0 < c) : 0 < nfwMu c :=
  (div_pos (pow_pos hc 2) (by positivity)).trans (nfwMu_lower hc)

theorem nfwScaleDensity_inj {rhoc Delta c d : ℝ} (hr : 0 < rhoc) (hD : 0 < Delta) (hc : 0 < c) (hd : 0 < d)
    (h : nfwScaleDensity rhoc c Delta = nfwScaleDensity rhoc d Delta) : c = d := by
  have e : ∀ c, nfwScaleDensity rhoc c Delta = Delta / 3 * rhoc * c ^ 3 / nfwMu c := fun c => rfl
  rw [e, e, div_eq_div_iff (nfwMu_pos hc).ne' (nfwMu_pos hd).ne'] at h
  have h' : nfwMu d * c ^ 3 = nfwMu c * d ^ 3 := by
    have hK : Delta / 3 * rhoc ≠ 0 := by positivity
    refine mul_left_cancel₀ hK ?_
    linear_combination h
  rcases lt_trichotomy c d with hlt | heq | hlt
  · exact absurd h' (nfwMu_cube hc hlt).ne
  · exact heq
  · exact absurd h' (nfwMu_cube hd hlt).ne'

/-- Two NFW halos at one redshift, in one cosmology, deflect alike exactly if they have the same centre, mass and
concentration. -/
theorem C119_nfw (L L' : NFW) (hL : L.Ok) (hL' : L'.Ok) (hs : L.s = 0) (hs' : L'.s = 0) (hG : L'.Gc2 = L.Gc2)
    (hD : L'.Delta = L.Delta) (hr : L'.rhoc = L.rhoc) (hdl : L'.d_l = L.d_l) (hds : L'.d_s = L.d_s)
    (hdls : L'.d_ls = L.d_ls) :
    (∀ x y, (x, y) ≠ (L.x0, L.y0) → (x, y) ≠ (L'.x0, L'.y0) → L.deflection x y = L'.deflection x y) ↔
      L'.x0 = L.x0 ∧ L'.y0 = L.y0 ∧ L'.mass = L.mass ∧ L'.c = L.c := by
  constructor
  · intro h
    obtain ⟨hx, hy⟩ := centre_unique (C54_nfw_deflection L hL hs) (C54_nfw_deflection L' hL' hs') h
    have hp := L.rs_pos hL
    have hp' := L'.rs_pos hL'
    have h1 := nfwScaleDensity_pos hL.rhoc hL.c hL.Delta
    have h2 := nfwScaleDensity_pos hL'.rhoc hL'.c hL'.Delta
    have := hL.G; have := hL.d_l; have := hL.d_s; have := hL.d_ls
    have := pi_pos; have ha := arcsecToRad_pos; have := radToArcsec_pos
    have key : ∀ r, 0 < r → nfwScaleDensity L.rhoc L.c L.Delta * L.rs ^ 3 * nfwH (r / L.rs) =
        nfwScaleDensity L'.rhoc L'.c L'.Delta * L'.rs ^ 3 * nfwH (r / L'.rs) := by
      intro r hr0
      have hth : 0 < r / (L.d_l * arcsecToRad) := by positivity
      have e := h (L.x0 + r / (L.d_l * arcsecToRad)) L.y0 (by simp [hth.ne']) (by simp [hx, hth.ne'])
      simp only [NFW.deflection, NFW.physicalDeflection, translateRotate, hs, hs', hx, hy, hG, hdl, hds, hdls, add_sub_cancel_left, sub_self,
        add_zero, Prod.mk.injEq] at e
      have e1 := e.1
      rw [zero_pow two_ne_zero, add_zero, sqrt_sq hth.le] at e1
      rw [show L.d_l * (r / (L.d_l * arcsecToRad)) * arcsecToRad = r by field_simp] at e1
      have hK : 0 < L.d_ls / L.d_s * (16 * π * L.Gc2 * radToArcsec / r) := by positivity
      refine mul_left_cancel₀ hK.ne' ?_
      rw [mul_div_cancel_right₀ _ hth.ne', mul_div_cancel_right₀ _ hth.ne'] at e1
      linear_combination e1
    obtain ⟨e1, e2⟩ := nfwH_inj (by positivity) hp hp' key
    rw [e2] at e1
    have e3 := mul_right_cancel₀ (pow_pos hp' 3).ne' e1
    rw [hr, hD] at e3
    have hc := nfwScaleDensity_inj hL.rhoc hL.Delta hL.c hL'.c e3
    refine ⟨hx, hy, ?_, hc.symm⟩
    simp only [NFW.rs, nfwScaleRadius, hr, hD, ← hc] at e2
    have hcp := hL.c; have := hL.mass; have := hL'.mass; have := hL.Delta; have := hL.rhoc
    rw [div_left_inj' hcp.ne'] at e2
    have e4 := (rpow_left_inj (by positivity) (by positivity) (by norm_num)).1 e2
    rw [div_left_inj' (by positivity)] at e4
    linarith
  · rintro ⟨hx, hy, hm, hc⟩ x y - -
    simp only [NFW.deflection, NFW.physicalDeflection, NFW.rs, hs, hs', hx, hy, hm, hc, hG, hD, hr, hdl, hds, hdls]

/-! Pseudo-Jaffe -/

theorem pjMass_swap (r m a b s : ℝ) : pjMassEnclosed r m b a s = pjMassEnclosed r m a b s := by
  simp only [pjMassEnclosed]
  rw [← neg_sub b a, div_neg, ← neg_div]
  congr 1
  ring

theorem pjMass_far {a b : ℝ} (ha : 0 < a) (hb : 0 < b) (hne : a ≠ b) (m r : ℝ) :
    pjMassEnclosed r m a b 0 = m - m * (a + b) / (√(a ^ 2 + r ^ 2) + √(b ^ 2 + r ^ 2)) := by
  have h1 : 0 < √(a ^ 2 + r ^ 2) := sqrt_pos.2 (by positivity)
  have h2 : 0 < √(b ^ 2 + r ^ 2) := sqrt_pos.2 (by positivity)
  have e1 := sq_sqrt (show 0 ≤ a ^ 2 + r ^ 2 by positivity)
  have e2 := sq_sqrt (show 0 ≤ b ^ 2 + r ^ 2 by positivity)
  simp only [pjMassEnclosed, add_zero]
  generalize √(a ^ 2 + r ^ 2) = A at *
  generalize √(b ^ 2 + r ^ 2) = B at *
  have hba : b - a ≠ 0 := sub_ne_zero.2 hne.symm
  have hAB : A + B ≠ 0 := by positivity
  rw [div_eq_iff hba, sub_mul, div_mul_eq_mul_div, eq_sub_iff_add_eq, ← eq_sub_iff_add_eq', div_eq_iff hAB]
  linear_combination m * e1 - m * e2

theorem pjMass_near {a b : ℝ} (ha : 0 < a) (hb : 0 < b) (m r : ℝ) :
    pjMassEnclosed r m a b 0 = r ^ 2 * (m / (b - a) * (1 / (√(a ^ 2 + r ^ 2) + a) - 1 / (√(b ^ 2 + r ^ 2) + b))) := by
  have h1 : 0 < √(a ^ 2 + r ^ 2) := sqrt_pos.2 (by positivity)
  have h2 : 0 < √(b ^ 2 + r ^ 2) := sqrt_pos.2 (by positivity)
  have e1 := sq_sqrt (show 0 ≤ a ^ 2 + r ^ 2 by positivity)
  have e2 := sq_sqrt (show 0 ≤ b ^ 2 + r ^ 2 by positivity)
  simp only [pjMassEnclosed, add_zero]
  generalize √(a ^ 2 + r ^ 2) = A at *
  generalize √(b ^ 2 + r ^ 2) = B at *
  have f1 : r ^ 2 * (1 / (A + a)) = A - a := by
    rw [mul_one_div, div_eq_iff (by positivity)]; linear_combination -e1
  have f2 : r ^ 2 * (1 / (B + b)) = B - b := by
    rw [mul_one_div, div_eq_iff (by positivity)]; linear_combination -e2
  linear_combination -m / (b - a) * f1 + m / (b - a) * f2

theorem sqrt_ratio_tendsto (a : ℝ) : Tendsto (fun r : ℝ => √(a ^ 2 + r ^ 2) / r) atTop (nhds 1) := by
  have h : Tendsto (fun r : ℝ => √((a / r) ^ 2 + 1)) atTop (nhds 1) := by
    have : Tendsto (fun r : ℝ => a / r) atTop (nhds 0) := tendsto_id.const_div_atTop a
    have := (this.pow 2).add_const 1
    have := (continuous_sqrt.tendsto _).comp this
    rw [zero_pow two_ne_zero, zero_add, sqrt_one] at this
    exact this
  refine h.congr' ((eventually_gt_atTop 0).mono fun r hr => ?_)
  simp only
  rw [div_pow, div_add_one (by positivity), sqrt_div (by positivity), sqrt_sq hr.le]

/-- The enclosed mass determines the mass and the two radii, but not which is which. -/
theorem pjMass_inj {m a b m' a' b' : ℝ} (hm : 0 < m) (ha : 0 < a) (hb : 0 < b) (hne : a ≠ b) (ha' : 0 < a') (hb' : 0 < b')
    (hne' : a' ≠ b') (h : ∀ r, 0 < r → pjMassEnclosed r m a b 0 = pjMassEnclosed r m' a' b' 0) :
    m' = m ∧ (a' = a ∧ b' = b ∨ a' = b ∧ b' = a) := by
  have hden : ∀ a b : ℝ, Tendsto (fun r : ℝ => r / (√(a ^ 2 + r ^ 2) + √(b ^ 2 + r ^ 2))) atTop (nhds (1 / 2)) := by
    intro a b
    have h1 := ((sqrt_ratio_tendsto a).add (sqrt_ratio_tendsto b)).inv₀ (by norm_num)
    rw [show ((1 : ℝ) + 1)⁻¹ = 1 / 2 by norm_num] at h1
    refine h1.congr' ((eventually_gt_atTop 0).mono fun r hr => ?_)
    rw [← add_div, inv_div]
  have hfar : ∀ {m a b : ℝ}, 0 < a → 0 < b → a ≠ b →
      Tendsto (fun r : ℝ => (m - pjMassEnclosed r m a b 0) * r) atTop (nhds (m * (a + b) / 2)) := by
    intro m a b ha hb hne
    have := (hden a b).const_mul (m * (a + b))
    rw [mul_one_div] at this
    refine this.congr fun r => ?_
    rw [pjMass_far ha hb hne]
    ring
  have hlim : ∀ {m a b : ℝ}, 0 < a → 0 < b → a ≠ b → Tendsto (fun r : ℝ => pjMassEnclosed r m a b 0) atTop (nhds m) := by
    intro m a b ha hb hne
    have h1 := (hfar (m := m) ha hb hne).mul (tendsto_inv_atTop_zero (𝕜 := ℝ))
    rw [mul_zero] at h1
    have h2 := h1.const_sub m
    rw [sub_zero] at h2
    refine h2.congr' ((eventually_gt_atTop 0).mono fun r hr => ?_)
    rw [mul_inv_cancel_right₀ hr.ne', sub_sub_cancel]
  have hmm : m' = m := by
    refine tendsto_nhds_unique (hlim ha' hb' hne') ((hlim (m := m) ha hb hne).congr' ?_)
    exact (eventually_gt_atTop 0).mono fun r hr => h r hr
  subst hmm
  have hsum : a + b = a' + b' := by
    have := tendsto_nhds_unique (hfar (m := m') ha' hb' hne') ((hfar (m := m') ha hb hne).congr'
      ((eventually_gt_atTop 0).mono fun r hr => by rw [h r hr]))
    field_simp at this
    linarith
  have hnear : ∀ {a b : ℝ}, 0 < a → 0 < b → a ≠ b → Tendsto
      (fun r : ℝ => m' / (b - a) * (1 / (√(a ^ 2 + r ^ 2) + a) - 1 / (√(b ^ 2 + r ^ 2) + b)))
      (nhdsWithin 0 (Set.Ioi 0)) (nhds (m' / (2 * (a * b)))) := by
    intro a b ha hb hne
    have hc : ContinuousAt (fun r : ℝ => m' / (b - a) * (1 / (√(a ^ 2 + r ^ 2) + a) - 1 / (√(b ^ 2 + r ^ 2) + b))) 0 := by
      have h1 : √(a ^ 2 + (0 : ℝ) ^ 2) + a ≠ 0 := by positivity
      have h2 : √(b ^ 2 + (0 : ℝ) ^ 2) + b ≠ 0 := by positivity
      have c1 : ContinuousAt (fun r : ℝ => √(a ^ 2 + r ^ 2) + a) 0 := by fun_prop
      have c2 : ContinuousAt (fun r : ℝ => √(b ^ 2 + r ^ 2) + b) 0 := by fun_prop
      exact continuousAt_const.mul ((continuousAt_const.div c1 h1).sub (continuousAt_const.div c2 h2))
    have ht := hc.tendsto.mono_left (nhdsWithin_le_nhds (s := Set.Ioi 0))
    have hv : m' / (b - a) * (1 / (√(a ^ 2 + (0 : ℝ) ^ 2) + a) - 1 / (√(b ^ 2 + (0 : ℝ) ^ 2) + b)) = m' / (2 * (a * b)) := by
      rw [zero_pow two_ne_zero, add_zero, add_zero, sqrt_sq ha.le, sqrt_sq hb.le]
      have : b - a ≠ 0 := sub_ne_zero.2 hne.symm
      field_simp
      ring
    rwa [hv] at ht
  have hprod : a * b = a' * b' := by
    have := tendsto_nhds_unique (hnear ha' hb' hne') ((hnear ha hb hne).congr' (by
      filter_upwards [self_mem_nhdsWithin] with r hr
      have e := h r hr
      rw [pjMass_near ha hb, pjMass_near ha' hb'] at e
      exact mul_left_cancel₀ (pow_pos hr 2).ne' e))
    rw [div_eq_div_iff (by positivity) (by positivity)] at this
    have := mul_left_cancel₀ hm.ne' this
    linarith
  refine ⟨rfl, ?_⟩
  have h0 : (a' - a) * (a' - b) = 0 := by linear_combination a' * (-hsum) + hprod
  rcases mul_eq_zero.1 h0 with h1 | h1
  · left; constructor <;> linarith
  · right; constructor <;> linarith

/-- Two pseudo-Jaffe lenses at one redshift deflect alike exactly if they have the same centre, mass and pair of radii.
Core radius and scale radius can be exchanged: the declared ranges of the two parameters contain every lens twice. -/
theorem C119_pseudo_jaffe (L L' : PJaffe) (hL : L.Ok) (hL' : L'.Ok) (hs : L.s = 0) (hs' : L'.s = 0) (hm : 0 < L.mass)
    (hm' : 0 < L'.mass) (hsg : L'.sigmacr = L.sigmacr) (hdl : L'.d_l = L.d_l) :
    (∀ x y, (x, y) ≠ (L.x0, L.y0) → (x, y) ≠ (L'.x0, L'.y0) → L.deflection x y = L'.deflection x y) ↔
      L'.x0 = L.x0 ∧ L'.y0 = L.y0 ∧ L'.mass = L.mass ∧ (L'.Rc = L.Rc ∧ L'.Rs = L.Rs ∨ L'.Rc = L.Rs ∧ L'.Rs = L.Rc) := by
  have hpos : ∀ {m a b r : ℝ}, 0 < m → 0 < a → 0 < b → a ≠ b → 0 < r → 0 < pjMassEnclosed r m a b 0 := by
    intro m a b r hm ha hb hne hr
    obtain ⟨h1, h2, -⟩ := C54_pseudo_jaffe_mass_grows m a b hm ha hb hne 0 r le_rfl hr
    linarith
  have ha := arcsecToRad_pos; have hpi := pi_pos
  have hsp : 0 < L.sigmacr := by
    have := hL.G; have := hL.d_l; have := hL.d_s; have := hL.d_ls
    rw [hL.sigmacr]; positivity
  have hdlp := hL.d_l
  constructor
  · intro h
    have hdir : ∀ L : PJaffe, L.Ok → L.s = 0 → 0 < L.mass → ∀ x y, (x, y) ≠ (L.x0, L.y0) →
        ∃ c, 0 < c ∧ L.deflection x y = (c * (x - L.x0), c * (y - L.y0)) := by
      intro L hL hs hm x y hxy
      have hR := radius_pos (sub_ne_zero_or hxy)
      have hM := hpos hm hL.Rc hL.Rs hL.ne hR
      have := hL.G; have := hL.d_l; have := hL.d_s; have := hL.d_ls
      have hsg : 0 < L.sigmacr := by rw [hL.sigmacr]; positivity
      refine ⟨pjMassEnclosed √((x - L.x0) ^ 2 + (y - L.y0) ^ 2) L.mass L.Rc L.Rs 0
        / (π * L.sigmacr * (L.d_l * arcsecToRad) ^ 2 * √((x - L.x0) ^ 2 + (y - L.y0) ^ 2)) / √((x - L.x0) ^ 2 + (y - L.y0) ^ 2),
        by positivity, ?_⟩
      rw [C54_pseudo_jaffe_mass L hL hs x y hxy]
      ext <;> simp only <;> ring
    obtain ⟨hx, hy⟩ := centre_unique (hdir L hL hs hm) (hdir L' hL' hs' hm') h
    have key : ∀ r, 0 < r → pjMassEnclosed r L.mass L.Rc L.Rs 0 = pjMassEnclosed r L'.mass L'.Rc L'.Rs 0 := by
      intro r hr
      have n1 : (L.x0 + r, L.y0) ≠ (L.x0, L.y0) := by simp [hr.ne']
      have n2 : (L.x0 + r, L.y0) ≠ (L'.x0, L'.y0) := by rw [hx, hy]; exact n1
      have e := h (L.x0 + r) L.y0 n1 n2
      rw [C54_pseudo_jaffe_mass L hL hs _ _ n1, C54_pseudo_jaffe_mass L' hL' hs' _ _ n2] at e
      simp only [hx, hy, hsg, hdl, add_sub_cancel_left, sub_self, Prod.mk.injEq] at e
      have e1 := e.1
      rw [zero_pow two_ne_zero, add_zero, sqrt_sq hr.le, mul_div_cancel_right₀ _ hr.ne', mul_div_cancel_right₀ _ hr.ne',
        div_left_inj' (by positivity)] at e1
      exact e1
    obtain ⟨e1, e2⟩ := pjMass_inj hm hL.Rc hL.Rs hL.ne hL'.Rc hL'.Rs hL'.ne key
    exact ⟨hx, hy, e1, e2⟩
  · rintro ⟨hx, hy, hmm, hr⟩ x y h1 h2
    rw [C54_pseudo_jaffe_mass L hL hs _ _ h1, C54_pseudo_jaffe_mass L' hL' hs' _ _ h2]
    simp only [hx, hy, hsg, hdl, hmm]
    rcases hr with ⟨h3, h4⟩ | ⟨h3, h4⟩
    · rw [h3, h4]
    · rw [h3, h4, pjMass_swap]

/-! ### Shear, sheet and multipoles -/

/-- An external shear is determined by its deflection, and so is its centre unless there is no shear. -/
theorem C119_shear (x0 y0 g1 g2 x0' y0' g1' g2' : ℝ) :
    (∀ x y, shearDeflection x0 y0 g1 g2 x y = shearDeflection x0' y0' g1' g2' x y) ↔
      g1' = g1 ∧ g2' = g2 ∧ (g1 = 0 ∧ g2 = 0 ∨ x0' = x0 ∧ y0' = y0) := by
  constructor
  · intro h
    have a := h 0 0
    have b := h 1 0
    have c := h 0 1
    simp only [shearDeflection, translateRotate, Prod.mk.injEq] at a b c
    have e1 : g1' = g1 := by linarith [a.1, b.1]
    have e2 : g2' = g2 := by linarith [a.1, c.1]
    subst e1 e2
    refine ⟨rfl, rfl, ?_⟩
    have f1 : (g1' ^ 2 + g2' ^ 2) * (x0' - x0) = 0 := by linear_combination g1' * a.1 + g2' * a.2
    have f2 : (g1' ^ 2 + g2' ^ 2) * (y0' - y0) = 0 := by linear_combination g2' * a.1 - g1' * a.2
    by_cases h0 : g1' ^ 2 + g2' ^ 2 = 0
    · left; constructor <;> nlinarith [sq_nonneg g1', sq_nonneg g2']
    · right
      have := (mul_eq_zero.1 f1).resolve_left h0
      have := (mul_eq_zero.1 f2).resolve_left h0
      constructor <;> linarith
  · rintro ⟨rfl, rfl, ⟨rfl, rfl⟩ | ⟨rfl, rfl⟩⟩ x y
    · simp [shearDeflection]
    · rfl

/-- Given as strength and angle, the angle is found modulo `π`. -/
theorem C119_shear_angle (x0 y0 g phi g' phi' : ℝ) (hg : 0 < g) (hg' : 0 < g') :
    (∀ x y, shearDeflection x0 y0 (gammaPhiToGamma1 g phi) (gammaPhiToGamma2 g phi) x y =
        shearDeflection x0 y0 (gammaPhiToGamma1 g' phi') (gammaPhiToGamma2 g' phi') x y) ↔
      g' = g ∧ ∃ k : ℤ, phi' = phi + k * π := by
  rw [C119_shear]
  simp only [and_self, or_true, and_true, gammaPhiToGamma1, gammaPhiToGamma2]
  constructor
  · rintro ⟨h1, h2⟩
    have hgg : g' = g := by
      refine (pow_left_inj₀ hg'.le hg.le two_ne_zero).1 ?_
      linear_combination (g' * cos (2 * phi') + g * cos (2 * phi)) * h1 + (g' * sin (2 * phi') + g * sin (2 * phi)) * h2
        - g' ^ 2 * sin_sq_add_cos_sq (2 * phi') + g ^ 2 * sin_sq_add_cos_sq (2 * phi)
    subst hgg
    refine ⟨rfl, ?_⟩
    have h1 := mul_left_cancel₀ hg'.ne' h1
    have h2 := mul_left_cancel₀ hg'.ne' h2
    have h3 : cos (2 * phi' - 2 * phi) = 1 := by
      rw [cos_sub, h1, h2]; linear_combination sin_sq_add_cos_sq (2 * phi)
    obtain ⟨n, hn⟩ := (cos_eq_one_iff _).1 h3
    exact ⟨n, by linarith⟩
  · rintro ⟨rfl, k, rfl⟩
    rw [show 2 * (phi + k * π) = 2 * phi + k * (2 * π) by ring, cos_add_int_mul_two_pi, sin_add_int_mul_two_pi]
    exact ⟨rfl, rfl⟩

theorem C119_sheet (x0 y0 kappa x0' y0' kappa' : ℝ) :
    (∀ x y, sheetDeflection x0 y0 kappa x y = sheetDeflection x0' y0' kappa' x y) ↔
      kappa' = kappa ∧ (kappa = 0 ∨ x0' = x0 ∧ y0' = y0) := by
  constructor
  · intro h
    have a := h 0 0
    have b := h 1 0
    simp only [sheetDeflection, translateRotate, Prod.mk.injEq] at a b
    have e1 : kappa' = kappa := by linarith [a.1, b.1]
    subst e1
    refine ⟨rfl, ?_⟩
    by_cases h0 : kappa' = 0
    · exact Or.inl h0
    · right
      have f1 := mul_right_cancel₀ h0 a.1
      have f2 := mul_right_cancel₀ h0 a.2
      constructor <;> linarith
  · rintro ⟨rfl, rfl | ⟨rfl, rfl⟩⟩ x y
    · simp [sheetDeflection]
    · rfl

theorem integral_cos_cos {j k : ℤ} (hj : 0 < j) (hk : 0 < k) :
    ∫ h in (0)..(2 * π), cos (j * h) * cos (k * h) = if j = k then π else 0 := by
  have e : ∀ h : ℝ, cos (j * h) * cos (k * h) = 1 / 2 * cos (((j - k : ℤ) : ℝ) * (h - 0)) + 1 / 2 * cos (((j + k : ℤ) : ℝ) * (h - 0)) := by
    intro h
    push_cast
    rw [sub_zero, sub_mul, add_mul, cos_sub, cos_add]
    ring
  simp_rw [e]
  rw [intervalIntegral.integral_add (by apply Continuous.intervalIntegrable; fun_prop)
    (by apply Continuous.intervalIntegrable; fun_prop), intervalIntegral.integral_const_mul, intervalIntegral.integral_const_mul,
    integral_cos_order (k := j + k) (by omega), mul_zero, add_zero]
  split_ifs with h
  · subst h
    simp
  · rw [integral_cos_order (by omega), mul_zero]

theorem cos_independent {n : ℕ} {m : Fin n → ℤ} (hm : ∀ i, 0 < m i) (hinj : Function.Injective m) {d : Fin n → ℝ}
    (h : ∀ t : ℝ, ∑ i, d i * cos (m i * t) = 0) (j : Fin n) : d j = 0 := by
  have h1 : ∫ t in (0)..(2 * π), (∑ i, d i * cos (m i * t)) * cos (m j * t) = 0 := by simp [h]
  simp_rw [Finset.sum_mul, mul_assoc] at h1
  rw [intervalIntegral.integral_finsetSum (fun i _ => by apply Continuous.intervalIntegrable; fun_prop)] at h1
  simp_rw [intervalIntegral.integral_const_mul, integral_cos_cos (hm _) (hm _), hinj.eq_iff] at h1
  simp at h1
  exact h1

/-- Multipoles of given, distinct orders have the same convergence exactly if the complex amplitudes
`a exp(i m phi_m)` are the same: the angle of order `m` is found modulo `2 π / m`, and modulo `π / m` with a change of sign of
the amplitude.  The declared range from `0` to `2 π` contains every lens `m` times (twice that often with the sign). -/
theorem C119_multipole {n : ℕ} (x0 y0 : ℝ) (m : Fin n → ℤ) (hm : ∀ i, 2 ≤ m i) (hinj : Function.Injective m)
    (a phim a' phim' : Fin n → ℝ) :
    (∀ x y, (x, y) ≠ (x0, y0) →
        multipoleConvergence x0 y0 (fun i => m i) a phim x y = multipoleConvergence x0 y0 (fun i => m i) a' phim' x y) ↔
      ∀ i, a' i * cos (m i * phim' i) = a i * cos (m i * phim i) ∧ a' i * sin (m i * phim' i) = a i * sin (m i * phim i) := by
  constructor
  · intro h
    have h1 : ∀ φ : ℝ, ∑ i, (a i * cos (m i * (φ - phim i)) - a' i * cos (m i * (φ - phim' i))) = 0 := by
      intro φ
      have e := h (x0 + 1 * cos φ) (y0 + 1 * sin φ) (by
        intro h0
        simp only [Prod.mk.injEq, one_mul, add_eq_left] at h0
        have := sin_sq_add_cos_sq φ
        rw [h0.1, h0.2] at this
        norm_num at this)
      rw [(multipole_polar x0 y0 m a phim one_pos φ).2.1, (multipole_polar x0 y0 m a' phim' one_pos φ).2.1] at e
      simp_rw [mul_assoc, ← Finset.mul_sum] at e
      rw [Finset.sum_sub_distrib]
      have := mul_left_cancel₀ (by norm_num) e
      linarith
    have h2 : ∀ (φ : ℝ) (j : Fin n), a j * cos (m j * (φ - phim j)) - a' j * cos (m j * (φ - phim' j)) = 0 := by
      intro φ j
      refine cos_independent (m := m) (fun i => by have := hm i; omega) hinj
        (d := fun i => a i * cos (m i * (φ - phim i)) - a' i * cos (m i * (φ - phim' i))) (fun t => ?_) j
      have e1 := h1 (φ + t)
      have e2 := h1 (φ - t)
      have e3 : ∑ i, ((a i * cos (m i * (φ + t - phim i)) - a' i * cos (m i * (φ + t - phim' i))) +
          (a i * cos (m i * (φ - t - phim i)) - a' i * cos (m i * (φ - t - phim' i)))) = 0 := by
        rw [Finset.sum_add_distrib, e1, e2, add_zero]
      have e4 : ∀ i, (a i * cos (m i * (φ + t - phim i)) - a' i * cos (m i * (φ + t - phim' i))) +
          (a i * cos (m i * (φ - t - phim i)) - a' i * cos (m i * (φ - t - phim' i))) =
          2 * ((a i * cos (m i * (φ - phim i)) - a' i * cos (m i * (φ - phim' i))) * cos (m i * t)) := by
        intro i
        rw [show (m i : ℝ) * (φ + t - phim i) = m i * (φ - phim i) + m i * t by ring,
          show (m i : ℝ) * (φ + t - phim' i) = m i * (φ - phim' i) + m i * t by ring,
          show (m i : ℝ) * (φ - t - phim i) = m i * (φ - phim i) - m i * t by ring,
          show (m i : ℝ) * (φ - t - phim' i) = m i * (φ - phim' i) - m i * t by ring, cos_add, cos_add, cos_sub, cos_sub]
        ring
      simp_rw [e4, ← Finset.mul_sum] at e3
      linarith
    intro i
    have hmi : (m i : ℝ) ≠ 0 := by have := hm i; exact_mod_cast (by omega : m i ≠ 0)
    have c1 := h2 0 i
    have c2 := h2 (π / 2 / m i) i
    rw [zero_sub, zero_sub, mul_neg, mul_neg, cos_neg, cos_neg] at c1
    rw [mul_sub, mul_sub, mul_div_cancel₀ _ hmi, cos_pi_div_two_sub, cos_pi_div_two_sub] at c2
    exact ⟨by linarith, by linarith⟩
  · intro h x y hxy
    obtain ⟨r, φ, hr, hx, hy⟩ := exists_polar hxy
    rw [hx, hy, (multipole_polar x0 y0 m a phim hr φ).2.1, (multipole_polar x0 y0 m a' phim' hr φ).2.1]
    refine Finset.sum_congr rfl fun i _ => ?_
    obtain ⟨h1, h2⟩ := h i
    rw [mul_sub, mul_sub, cos_sub, cos_sub]
    linear_combination -(1 / (2 * r)) * cos (m i * φ) * h1 - (1 / (2 * r)) * sin (m i * φ) * h2

/-- An ellipsoid turned by half a turn is the same lens; turned by a quarter, or made a little rounder, it is another one. -/
example : (∀ x y, sieDeflection 0.1 0 0.7 0.3 1.2 0 x y = sieDeflection 0.1 0 0.7 (0.3 + π) 1.2 0 x y) ∧
    (∃ x y, sieDeflection 0.1 0 0.7 0.3 1.2 0 x y ≠ sieDeflection 0.1 0 0.7 (0.3 + π / 2) 1.2 0 x y) ∧
    (∃ x y, sieDeflection 0.1 0 0.7 0.3 1.2 0 x y ≠ sieDeflection 0.1 0 0.71 0.3 1.2 0 x y) := by
  refine ⟨fun x y => ?_, ?_, ?_⟩
  · have := sieDeflection_turn 0.1 0 0.7 0.3 1.2 0 x y 1
    rw [Int.cast_one, one_mul] at this
    exact this.symm
  · by_contra hc
    push Not at hc
    obtain ⟨-, -, -, -, k, hk⟩ := (C119_sie 0.1 0 0.7 0.3 1.2 0.1 0 0.7 (0.3 + π / 2) 1.2 (by norm_num) (by norm_num) (by norm_num)
      (by norm_num) (by norm_num) (by norm_num)).1 fun x y _ _ => hc x y
    have h2 : (1 / 2 : ℝ) = k := mul_right_cancel₀ pi_ne_zero (by linarith)
    have h3 : ((2 * k : ℤ) : ℝ) = ((1 : ℤ) : ℝ) := by push_cast; linarith
    have := Int.cast_injective h3
    omega
  · by_contra hc
    push Not at hc
    obtain ⟨-, -, h, -⟩ := (C119_sie 0.1 0 0.7 0.3 1.2 0.1 0 0.71 0.3 1.2 (by norm_num) (by norm_num) (by norm_num)
      (by norm_num) (by norm_num) (by norm_num)).1 fun x y _ _ => hc x y
    norm_num at h

/-- A pseudo-Jaffe lens with core and scale radius exchanged is the same lens. -/
example (L : PJaffe) (hL : L.Ok) (hs : L.s = 0) (hm : 0 < L.mass) (x y : ℝ) (h : (x, y) ≠ (L.x0, L.y0)) :
    L.deflection x y = ({L with Rc := L.Rs, Rs := L.Rc} : PJaffe).deflection x y :=
  (C119_pseudo_jaffe L {L with Rc := L.Rs, Rs := L.Rc} hL ⟨hL.G, hL.Rs, hL.Rc, hL.ne.symm, hL.d_l, hL.d_s, hL.d_ls, hL.sigmacr⟩
    hs hs hm hm rfl rfl).2 ⟨rfl, rfl, rfl, .inr ⟨rfl, rfl⟩⟩ x y h h

/-- Two Sersic sources that differ in the index alone look different somewhere. -/
example : ∃ x y, Sersic.brightness false 0 0 0 0.8 0.2 1 1 1 x y ≠ Sersic.brightness false 0 0 0 0.8 0.2 4 1 1 x y := by
  by_contra hc
  push Not at hc
  obtain ⟨-, -, -, h, -⟩ := (C119_sersic false 0 0 0.8 0.2 1 1 1 0 0 0.8 0.2 4 1 1 (by norm_num) (by norm_num) (by norm_num)
    (by norm_num) (by norm_num) (by norm_num) (by norm_num) (by norm_num) (by norm_num) (by norm_num)).1 hc
  norm_num at h

/-- A quadrupole-like multipole of order 4: four angles between `0` and `2 π` give the same lens. -/
example (a x y : ℝ) (j : ℕ) (h : (x, y) ≠ (0, 0)) :
    multipoleConvergence (n := 1) 0 0 (fun _ => ((4 : ℤ) : ℝ)) (fun _ => a) (fun _ => 0.3) x y =
      multipoleConvergence (n := 1) 0 0 (fun _ => ((4 : ℤ) : ℝ)) (fun _ => a) (fun _ => 0.3 + j * (π / 2)) x y := by
  refine (C119_multipole (n := 1) 0 0 (fun _ => 4) (fun _ => by norm_num) (fun i j _ => Subsingleton.elim i j) _ _ _ _).2 (fun i => ?_) x y h
  have : (((4 : ℤ) : ℝ)) * (0.3 + j * (π / 2)) = ((4 : ℤ) : ℝ) * 0.3 + j * (2 * π) := by push_cast; ring
  rw [this, cos_add_nat_mul_two_pi, sin_add_nat_mul_two_pi]
  exact ⟨rfl, rfl⟩

end Caustics

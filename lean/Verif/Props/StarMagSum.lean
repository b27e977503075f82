import Verif.Props.StarCount
import Verif.Props.MagSum
import Verif.Lemmas.StarMagSum

/-!
C142: the magnifications of a field of point masses that makes as many images as it can, counted with their parities,
add up to a constant.
-/

namespace Caustics

open ComplexConjugate FieldLens Filter Topology

/-- `J` is the Jacobian of `raytrace` at `p`. -/
def FieldJacobian (z : ℝ) (l : List FieldLens) (p : ℝ × ℝ) (J : M22 ℝ) : Prop :=
  ∃ f : ℝ → ℝ → ℝ × ℝ,
    (∀ᶠ q in 𝓝 p, raytraceOpt (singlePlaneO z (l.map (thin z))).reduced q.1 q.2 = some (f q.1 q.2)) ∧
    HasJac f J.a00 J.a01 J.a10 J.a11 p.1 p.2

theorem fieldJacobian_det {z : ℝ} {l : List FieldLens} (hk : (l.map kappa).sum ≠ 1) {p : ℝ × ℝ}
    (hp : (⟨p.1, p.2⟩ : ℂ) ∉ starSet l) {J : M22 ℝ} (hJ : FieldJacobian z l p J) :
    ((J.a00 * J.a11 - J.a01 * J.a10 : ℝ) : ℂ) = ((1 - kappaSum l : ℝ) : ℂ) * conj ((1 - kappaSum l : ℝ) : ℂ) *
      (1 - ‖starF' (starSet l) (fun i => massAt l i) (1 - kappaSum l : ℝ) ⟨(gammaSum l).1, (gammaSum l).2⟩
        ⟨p.1, p.2⟩‖ ^ 2 : ℝ) := by
  obtain ⟨f, hf, hj⟩ := hJ
  obtain ⟨M, hM, hd⟩ := field_det (z := z) (ζ := 0) hk hp hf
  have u1 := hj.1.unique hM.1
  have u2 := hj.2.unique hM.2
  rw [u1.1, u1.2, u2.1, u2.2, hd, Complex.conj_ofReal]
  push_cast
  ring

theorem signedMagnification_complex {T : Finset (ℝ × ℝ)} {J : ℝ × ℝ → M22 ℝ} {d : ℂ → ℂ}
    (h : ∀ p ∈ T, (((J p).a00 * (J p).a11 - (J p).a01 * (J p).a10 : ℝ) : ℂ) = d ⟨p.1, p.2⟩) :
    (signedMagnification T J : ℂ) = ∑ w ∈ T.map ⟨fun c : ℝ × ℝ => (⟨c.1, c.2⟩ : ℂ), mkC_injective⟩, (d w)⁻¹ := by
  rw [Finset.sum_map, signedMagnification, Complex.ofReal_sum]
  refine Finset.sum_congr rfl fun p hp => ?_
  rw [sign_mul_magnification, Complex.ofReal_inv, h p hp]
  rfl

/-- With external shear: if there are `(N + 1)²` images, none is on a critical curve, and the magnifications with their
signs add up to `1 / ((1 - κ)² - γ²)`. -/
theorem C142_sheared (z : ℝ) (l : List FieldLens) (hok : ∀ m ∈ l, m.Ok) (hne : (starPlaces l).Nonempty)
    (hk : (l.map kappa).sum ≠ 1) (hg : (l.map gamma).sum ≠ 0) (b : ℝ × ℝ) (T : Finset (ℝ × ℝ))
    (hT : T.card = ((starPlaces l).card + 1) ^ 2) (hTb : (T : Set (ℝ × ℝ)) ⊆ fieldImages z l b)
    {J : ℝ × ℝ → M22 ℝ} (hJ : ∀ p ∈ T, FieldJacobian z l p (J p)) :
    (1 - (l.map kappa).sum) ^ 2 - ((l.map gamma).sum.1 ^ 2 + (l.map gamma).sum.2 ^ 2) ≠ 0 ∧
    (∀ p ∈ T, (J p).a00 * (J p).a11 - (J p).a01 * (J p).a10 ≠ 0) ∧
    signedMagnification T J =
      1 / ((1 - (l.map kappa).sum) ^ 2 - ((l.map gamma).sum.1 ^ 2 + (l.map gamma).sum.2 ^ 2)) := by
  have hk0 : ((1 - kappaSum l : ℝ) : ℂ) ≠ 0 := by
    rw [Complex.ofReal_ne_zero, sub_ne_zero]
    exact hk.symm
  have him : ∀ p ∈ T, _ := fun p hp => (field_star_image z l p b).1 (hTb hp)
  have hdet : ∀ p ∈ T, _ := fun p hp => fieldJacobian_det hk (him p hp).1 (hJ p hp)
  obtain ⟨h1, h2, h3⟩ := star_sheared_sum (S := starSet l) (m := fun i => (massAt l i : ℂ))
    (a := (1 - kappaSum l : ℝ)) (g := ⟨(gammaSum l).1, (gammaSum l).2⟩) (ζ := ⟨b.1, b.2⟩ - smoothConst l)
    (T := T.map ⟨fun c : ℝ × ℝ => (⟨c.1, c.2⟩ : ℂ), mkC_injective⟩) hk0
    (fun h => hg (mkC_injective (h.trans rfl)))
    (hne.image _) (fun i hi => by
      rw [Complex.ofReal_ne_zero]
      exact (massAt_pos hok hi).ne') (by rw [Finset.card_map, hT, starSet_card]) (by
      intro w hw
      obtain ⟨p, hp, rfl⟩ := Finset.mem_map.1 hw
      exact him p hp)
  have e : ((1 - kappaSum l : ℝ) : ℂ) * conj ((1 - kappaSum l : ℝ) : ℂ) - (⟨(gammaSum l).1, (gammaSum l).2⟩ : ℂ) *
      conj (⟨(gammaSum l).1, (gammaSum l).2⟩ : ℂ) =
      ((1 - (l.map kappa).sum) ^ 2 - ((l.map gamma).sum.1 ^ 2 + (l.map gamma).sum.2 ^ 2) : ℝ) := by
    rw [Complex.mul_conj, Complex.mul_conj, Complex.normSq_eq_norm_sq, Complex.normSq_eq_norm_sq, gammaSum_norm,
      Complex.norm_real, Real.norm_eq_abs, sq_abs, ← Complex.ofReal_sub]
    rfl
  rw [e] at h1 h3
  refine ⟨Complex.ofReal_ne_zero.1 h1, fun p hp h => ?_, ?_⟩
  · refine h2 _ (Finset.mem_map.2 ⟨p, hp, rfl⟩) ?_
    have := hdet p hp
    rw [h] at this
    exact this.symm.trans (by simp)
  · rw [← Complex.ofReal_inj, signedMagnification_complex (d := fun w => ((1 - kappaSum l : ℝ) : ℂ) *
      conj ((1 - kappaSum l : ℝ) : ℂ) * (1 - ‖starF' (starSet l) (fun i => massAt l i) (1 - kappaSum l : ℝ) 
        ⟨(gammaSum l).1, (gammaSum l).2⟩ w‖ ^ 2 : ℝ)) hdet, h3, one_div, Complex.ofReal_inv]

/-- Without shear: if there are `N² + 1` images, none is on a critical curve, and the magnifications with their signs add
up to `1 / (1 - κ)²`. -/
theorem C142_unsheared (z : ℝ) (l : List FieldLens) (hok : ∀ m ∈ l, m.Ok) (hne : (starPlaces l).Nonempty)
    (hk : (l.map kappa).sum ≠ 1) (hg : (l.map gamma).sum = 0) (b : ℝ × ℝ)
    (hring : ∀ c, starPlaces l = {c} → c ∉ fieldImages z (smoothPart l) b) (T : Finset (ℝ × ℝ))
    (hT : T.card = (starPlaces l).card ^ 2 + 1) (hTb : (T : Set (ℝ × ℝ)) ⊆ fieldImages z l b)
    {J : ℝ × ℝ → M22 ℝ} (hJ : ∀ p ∈ T, FieldJacobian z l p (J p)) :
    (∀ p ∈ T, (J p).a00 * (J p).a11 - (J p).a01 * (J p).a10 ≠ 0) ∧
    signedMagnification T J = 1 / (1 - (l.map kappa).sum) ^ 2 := by
  have hg0 : (⟨(gammaSum l).1, (gammaSum l).2⟩ : ℂ) = 0 := by
    rw [gammaSum, hg]
    rfl
  have hk0 : ((1 - kappaSum l : ℝ) : ℂ) ≠ 0 := by
    rw [Complex.ofReal_ne_zero, sub_ne_zero]
    exact hk.symm
  have him : ∀ p ∈ T, _ := fun p hp => (field_star_image z l p b).1 (hTb hp)
  have hdet : ∀ p ∈ T, _ := fun p hp => fieldJacobian_det hk (him p hp).1 (hJ p hp)
  rw [hg0] at him hdet
  obtain ⟨h2, h3⟩ := star_unsheared_sum (S := starSet l) (m := fun i => (massAt l i : ℂ))
    (a := (1 - kappaSum l : ℝ)) (ζ := ⟨b.1, b.2⟩ - smoothConst l)
    (T := T.map ⟨fun c : ℝ × ℝ => (⟨c.1, c.2⟩ : ℂ), mkC_injective⟩) hk0 (fun i hi => by
      rw [Complex.ofReal_ne_zero]
      exact (massAt_pos hok hi).ne') (hne.image _) (by
      intro k hS hak
      have hc : starPlaces l = {(k.re, k.im)} := by
        ext c
        have h1 : (⟨c.1, c.2⟩ : ℂ) ∈ starSet l ↔ (⟨c.1, c.2⟩ : ℂ) = k := by rw [hS, Finset.mem_singleton]
        rw [mem_starSet, ← mem_starPlaces] at h1
        rw [h1, Finset.mem_singleton]
        exact ⟨fun h => by rw [← h], fun h => by rw [h]⟩
      exact hring _ hc (smoothPart_image hg hak)) (by rw [Finset.card_map, hT, starSet_card]) (by
      intro w hw
      obtain ⟨p, hp, rfl⟩ := Finset.mem_map.1 hw
      exact him p hp)
  refine ⟨fun p hp h => ?_, ?_⟩
  · refine h2 _ (Finset.mem_map.2 ⟨p, hp, rfl⟩) ?_
    have := hdet p hp
    rw [h] at this
    exact this.symm.trans (by simp)
  · rw [← Complex.ofReal_inj, signedMagnification_complex (d := fun w => ((1 - kappaSum l : ℝ) : ℂ) *
      conj ((1 - kappaSum l : ℝ) : ℂ) * (1 - ‖starF' (starSet l) (fun i => massAt l i) (1 - kappaSum l : ℝ)
        0 w‖ ^ 2 : ℝ)) hdet, h3, one_div, Complex.conj_ofReal]
    push_cast
    rw [sq]
    rfl

/-- A binary lens with a sheet: whenever it makes five images the magnifications with their signs add up to
`1 / (1 - κ)²`, for every pair of masses, every separation and every source. -/
theorem C142_binary (z x1 y1 R1 x2 y2 R2 k : ℝ) (h1 : R1 ≠ 0) (h2 : R2 ≠ 0) (hne : (x1, y1) ≠ (x2, y2)) (hk : k ≠ 1)
    (b : ℝ × ℝ) (h5 : (fieldImages z [.point x1 y1 R1, .point x2 y2 R2, .sheet 0 0 k] b).ncard = 5) :
    ∃ (T : Finset (ℝ × ℝ)) (J : ℝ × ℝ → M22 ℝ),
      (T : Set (ℝ × ℝ)) = fieldImages z [.point x1 y1 R1, .point x2 y2 R2, .sheet 0 0 k] b ∧
      (∀ p ∈ T, FieldJacobian z [.point x1 y1 R1, .point x2 y2 R2, .sheet 0 0 k] p (J p)) ∧
      signedMagnification T J = 1 / (1 - k) ^ 2 := by
  set l : List FieldLens := [.point x1 y1 R1, .point x2 y2 R2, .sheet 0 0 k] with hl
  have hpl : starPlaces l = {(x1, y1), (x2, y2)} := by
    ext c
    simp [mem_starPlaces, place, hl, eq_comm]
  have hcard : (starPlaces l).card = 2 := by rw [hpl, Finset.card_pair hne]
  have hks : (l.map kappa).sum = k := by simp [hl, kappa]
  have hfin : (fieldImages z l b).Finite := Set.finite_of_ncard_ne_zero (by rw [h5]; norm_num)
  have hreg : ∀ p ∈ hfin.toFinset, ∃ J, FieldJacobian z l p J := by
    intro p hp
    have hp' := (field_star_image z l p b).1 (hfin.mem_toFinset.1 hp)
    obtain ⟨f, M, hf, hM⟩ := C139_defined z l (by rw [hks]; exact hk) p (by
      rw [mem_starPlaces, ← mem_starSet]
      exact hp'.1)
    exact ⟨M, f, hf, hM⟩
  haveI : Nonempty (M22 ℝ) := ⟨⟨0, 0, 0, 0⟩⟩
  choose! J hJ using hreg
  refine ⟨hfin.toFinset, J, hfin.coe_toFinset, hJ, ?_⟩
  rw [(C142_unsheared z l (by simp [hl, Ok, h1, h2]) (by simp [hpl]) (by rw [hks]; exact hk) (by simp [hl, gamma]) b
    (fun c hc => by
      rw [hc, Finset.card_singleton] at hcard
      omega) hfin.toFinset (by rw [← Set.ncard_eq_toFinset_card _ hfin, h5, hcard]; rfl) (by rw [hfin.coe_toFinset]) hJ).2,
    hks]

/-- Two equal masses, one Einstein radius to either side of the line of sight to the source. -/
example : ∃ (T : Finset (ℝ × ℝ)) (J : ℝ × ℝ → M22 ℝ), T.card = 5 ∧
    (∀ p ∈ T, FieldJacobian (1 / 2) [.point 1 0 1, .point (-1) 0 1] p (J p)) ∧ signedMagnification T J = 1 := by
  have h5 := C131_sharp_two (1 / 2) 1 1 one_pos (by norm_num)
  set l : List FieldLens := [.point 1 0 1, .point (-1) 0 1] with hl
  have hpl : starPlaces l = {((1 : ℝ), (0 : ℝ)), (-1, 0)} := by
    ext c
    simp [mem_starPlaces, place, hl, eq_comm]
  have hcard : (starPlaces l).card = 2 := by
    rw [hpl, Finset.card_pair]
    norm_num
  have hfin : (fieldImages (1 / 2) l (0, 0)).Finite := Set.finite_of_ncard_ne_zero (by rw [h5]; norm_num)
  have hreg : ∀ p ∈ hfin.toFinset, ∃ J, FieldJacobian (1 / 2) l p J := by
    intro p hp
    have hp' := (field_star_image (1 / 2) l p (0, 0)).1 (hfin.mem_toFinset.1 hp)
    obtain ⟨f, M, hf, hM⟩ := C139_defined (1 / 2) l (by simp [hl, kappa]) p (by
      rw [mem_starPlaces, ← mem_starSet]
      exact hp'.1)
    exact ⟨M, f, hf, hM⟩
  haveI : Nonempty (M22 ℝ) := ⟨⟨0, 0, 0, 0⟩⟩
  choose! J hJ using hreg
  have hT : hfin.toFinset.card = 5 := by rw [← Set.ncard_eq_toFinset_card _ hfin, h5]
  refine ⟨hfin.toFinset, J, hT, hJ, ?_⟩
  rw [(C142_unsheared (1 / 2) l (by simp [hl, Ok]) (by simp [hpl]) (by simp [hl, kappa]) (by simp [hl, gamma]) (0, 0)
    (fun c hc => by
      rw [hc, Finset.card_singleton] at hcard
      omega) hfin.toFinset (by rw [hT, hcard]; rfl) (by rw [hfin.coe_toFinset]) hJ).2]
  simp [hl, kappa]

end Caustics

import Verif.Props.StarField
import Verif.Lemmas.StarParity
import Verif.Lemmas.StarFirst
import Verif.Lemmas.Polar
import Verif.Model.Jacobian

/-!
C139: whether the number of images of a field of point masses is even or odd, and that there always are some.
-/

namespace Caustics

open ComplexConjugate FieldLens Filter Topology

/-- No image of `b` is on a critical curve: the Jacobian of `raytrace` is not degenerate there. -/
def FieldRegular (z : ℝ) (l : List FieldLens) (b : ℝ × ℝ) : Prop :=
  ∀ p ∈ fieldImages z l b, ∃ (f : ℝ → ℝ → ℝ × ℝ) (M : M22 ℝ),
    (∀ᶠ q in 𝓝 p, raytraceOpt (singlePlaneO z (l.map (thin z))).reduced q.1 q.2 = some (f q.1 q.2)) ∧
    HasJac f M.a00 M.a01 M.a10 M.a11 p.1 p.2 ∧ M.a00 * M.a11 - M.a01 * M.a10 ≠ 0

/-! ### The Jacobian -/

theorem field_source (z : ℝ) (l : List FieldLens) (hk : (l.map kappa).sum ≠ 1) (ζ : ℂ) (q : ℝ × ℝ) (b : ℝ × ℝ)
    (h : raytraceOpt (singlePlaneO z (l.map (thin z))).reduced q.1 q.2 = some b) :
    (⟨b.1, b.2⟩ : ℂ) = (1 - kappaSum l : ℝ) * (⟨q.1, q.2⟩ - conj (starF (starSet l) (fun i => massAt l i)
      (1 - kappaSum l : ℝ) ⟨(gammaSum l).1, (gammaSum l).2⟩ ζ ⟨q.1, q.2⟩)) + (ζ + smoothConst l) := by
  have hS : ∀ m ∈ l, ∀ c : ℝ × ℝ, m.place = some c → (⟨c.1, c.2⟩ : ℂ) ∈ starSet l := fun m hm c hc =>
    mem_starSet.2 ⟨m, hm, hc⟩
  obtain ⟨-, h2⟩ := (field_image z l q b).1 h
  have ha : ((1 - kappaSum l : ℝ) : ℂ) ≠ 0 := by
    rw [Complex.ofReal_ne_zero, sub_ne_zero]
    exact hk.symm
  rw [← h2, star_gather l _ hS, starF]
  simp only [map_div₀, map_add, map_mul, Complex.conj_conj, Complex.conj_ofReal, map_sum, map_sub]
  rw [mul_sub, mul_div_cancel₀ _ ha]
  push_cast
  ring

theorem field_det {z : ℝ} {l : List FieldLens} (hk : (l.map kappa).sum ≠ 1) {ζ : ℂ} {p : ℝ × ℝ} {f : ℝ → ℝ → ℝ × ℝ}
    (hp : (⟨p.1, p.2⟩ : ℂ) ∉ starSet l)
    (hf : ∀ᶠ q in 𝓝 p, raytraceOpt (singlePlaneO z (l.map (thin z))).reduced q.1 q.2 = some (f q.1 q.2)) :
    ∃ M : M22 ℝ, HasJac f M.a00 M.a01 M.a10 M.a11 p.1 p.2 ∧ M.a00 * M.a11 - M.a01 * M.a10 =
      (1 - kappaSum l) ^ 2 * (1 - ‖starF' (starSet l) (fun i => massAt l i) (1 - kappaSum l : ℝ)
        ⟨(gammaSum l).1, (gammaSum l).2⟩ ⟨p.1, p.2⟩‖ ^ 2) := by
  have hd := starF_deriv (m := fun i => (massAt l i : ℂ)) (a := (1 - kappaSum l : ℝ))
    (g := ⟨(gammaSum l).1, (gammaSum l).2⟩) (ζ := ζ) hp
  set c := starF' (starSet l) (fun i => (massAt l i : ℂ)) (1 - kappaSum l : ℝ) ⟨(gammaSum l).1, (gammaSum l).2⟩
    ⟨p.1, p.2⟩ with hc
  set a := 1 - kappaSum l with ha
  have hz := hasGrad_complex p.1 p.2
  have hF := (hz.ccomp hd).clm (Complex.conjCLE : ℂ →L[ℝ] ℂ)
  have hv := ((hz.sub hF).const_mul (a : ℂ)).add (HasGrad.const (ζ + smoothConst l) p.1 p.2)
  have hre := (hv.clm Complex.reCLM).congr_near (v := fun x y => (f x y).1) (by
    filter_upwards [hf] with q hq
    have := congrArg Complex.re (field_source z l hk ζ q _ hq)
    exact this)
  have him := (hv.clm Complex.imCLM).congr_near (v := fun x y => (f x y).2) (by
    filter_upwards [hf] with q hq
    have := congrArg Complex.im (field_source z l hk ζ q _ hq)
    exact this)
  refine ⟨⟨_, _, _, _⟩, ⟨hre, him⟩, ?_⟩
  clear_value c a
  rw [← Complex.normSq_eq_norm_sq, Complex.normSq_apply]
  simp
  ring

theorem field_regular {z : ℝ} {l : List FieldLens} (hk : (l.map kappa).sum ≠ 1) {b : ℝ × ℝ} (hreg : FieldRegular z l b)
    (w : ℂ) (hw : StarImage (starSet l) (fun i => massAt l i) (1 - kappaSum l : ℝ) ⟨(gammaSum l).1, (gammaSum l).2⟩
      (⟨b.1, b.2⟩ - smoothConst l) w) :
    ‖starF' (starSet l) (fun i => massAt l i) (1 - kappaSum l : ℝ) ⟨(gammaSum l).1, (gammaSum l).2⟩ w‖ ≠ 1 := by
  intro h1
  obtain ⟨f, M, hf, hJ, hdet⟩ := hreg (w.re, w.im) ((field_star_image z l (w.re, w.im) b).2 hw)
  obtain ⟨M', hJ', hd⟩ := field_det (z := z) (ζ := 0) hk (p := (w.re, w.im)) hw.1 hf
  have u1 := hJ.1.unique hJ'.1
  have u2 := hJ.2.unique hJ'.2
  rw [u1.1, u1.2, u2.1, u2.2, hd] at hdet
  refine hdet ?_
  change (1 - kappaSum l) ^ 2 * (1 - ‖starF' (starSet l) (fun i => (massAt l i : ℂ)) (1 - kappaSum l : ℝ)
    ⟨(gammaSum l).1, (gammaSum l).2⟩ w‖ ^ 2) = 0
  rw [h1]
  ring

/-- Conversely. -/
theorem field_regular_of {z : ℝ} {l : List FieldLens} (hk : (l.map kappa).sum ≠ 1) {b : ℝ × ℝ}
    (h : ∀ w, StarImage (starSet l) (fun i => massAt l i) (1 - kappaSum l : ℝ) ⟨(gammaSum l).1, (gammaSum l).2⟩
      (⟨b.1, b.2⟩ - smoothConst l) w →
      ‖starF' (starSet l) (fun i => massAt l i) (1 - kappaSum l : ℝ) ⟨(gammaSum l).1, (gammaSum l).2⟩ w‖ ≠ 1) :
    FieldRegular z l b := by
  intro p hp
  have hw := (field_star_image z l p b).1 hp
  let v : ℝ → ℝ → ℂ := fun x y => ⟨x, y⟩ - (l.map fun m => m.cdefl ⟨x, y⟩).sum
  have hp' : p ∉ starPlaces l := by
    rw [mem_starPlaces, ← mem_starSet]
    exact hw.1
  have hev : ∀ᶠ q in 𝓝 p, q ∉ starPlaces l := (Finset.finite_toSet (starPlaces l)).isClosed.isOpen_compl.mem_nhds hp'
  have hf : ∀ᶠ q in 𝓝 p, raytraceOpt (singlePlaneO z (l.map (thin z))).reduced q.1 q.2 =
      some ((fun x y => ((v x y).re, (v x y).im)) q.1 q.2) := by
    filter_upwards [hev] with q hq
    refine (field_image z l q _).2 ⟨fun m hm he => hq (mem_starPlaces.2 ⟨m, hm, he⟩), rfl⟩
  obtain ⟨M, hM, hd⟩ := field_det (z := z) (ζ := 0) (f := fun x y => ((v x y).re, (v x y).im)) hk hw.1 hf
  refine ⟨_, M, hf, hM, ?_⟩
  rw [hd]
  refine mul_ne_zero (pow_ne_zero _ (sub_ne_zero.2 hk.symm)) (sub_ne_zero.2 fun h1 => h _ hw ?_)
  exact (pow_eq_one_iff_of_nonneg (norm_nonneg _) two_ne_zero).1 h1.symm

theorem fieldImages_ncard (z : ℝ) (l : List FieldLens) (b : ℝ × ℝ) :
    (fieldImages z l b).ncard = {w | StarImage (starSet l) (fun i => massAt l i) (1 - kappaSum l : ℝ)
      ⟨(gammaSum l).1, (gammaSum l).2⟩ (⟨b.1, b.2⟩ - smoothConst l) w}.ncard := by
  rw [← Set.ncard_image_of_injective (fieldImages z l b) mkC_injective]
  congr 1
  ext w
  constructor
  · rintro ⟨p, hp, rfl⟩
    exact (field_star_image z l p b).1 hp
  · intro hw
    exact ⟨(w.re, w.im), (field_star_image z l (w.re, w.im) b).2 hw, rfl⟩

theorem smoothPart_image {z : ℝ} {l : List FieldLens} (hg : (l.map gamma).sum = 0) {b : ℝ × ℝ} {k : ℂ}
    (hak : ((1 - kappaSum l : ℝ) : ℂ) * k = ⟨b.1, b.2⟩ - smoothConst l) :
    (k.re, k.im) ∈ fieldImages z (smoothPart l) b := by
  refine (field_star_image z _ _ b).2 ?_
  have es : starSet (smoothPart l) = ∅ := by
    refine Finset.eq_empty_of_forall_notMem fun w hw => ?_
    obtain ⟨c, hc, -⟩ := Finset.mem_image.1 hw
    obtain ⟨m, hm, he⟩ := mem_starPlaces.1 hc
    simp [smoothPart, he] at hm
  have e1 : kappaSum (smoothPart l) = kappaSum l := by
    clear hg hak es
    induction l with
    | nil => rfl
    | cons m l ih => cases m <;> simp_all [kappaSum, smoothPart, place, kappa]
  have e2 : gammaSum (smoothPart l) = gammaSum l := by
    clear hg hak es e1
    induction l with
    | nil => rfl
    | cons m l ih => cases m <;> simp_all [gammaSum, smoothPart, place, gamma]
  have e3 : smoothConst (smoothPart l) = smoothConst l := by
    clear hg hak es e1 e2
    induction l with
    | nil => rfl
    | cons m l ih => cases m <;> simp_all [smoothConst, smoothPart, place]
  have hg0 : (⟨(gammaSum l).1, (gammaSum l).2⟩ : ℂ) = 0 := by
    rw [gammaSum, hg]
    rfl
  rw [StarImage, es, e1, e2, e3, hg0]
  exact ⟨by simp, by simpa using hak⟩

theorem gammaSum_norm (l : List FieldLens) : ‖(⟨(gammaSum l).1, (gammaSum l).2⟩ : ℂ)‖ ^ 2 =
    (l.map gamma).sum.1 ^ 2 + (l.map gamma).sum.2 ^ 2 := by
  rw [← Complex.normSq_eq_norm_sq, Complex.normSq_mk, ← sq, ← sq]
  rfl

/-! ### The property -/

/-- Away from the point masses `raytrace` is defined and differentiable. -/
theorem C139_defined (z : ℝ) (l : List FieldLens) (hk : (l.map kappa).sum ≠ 1) (p : ℝ × ℝ) (hp : p ∉ starPlaces l) :
    ∃ (f : ℝ → ℝ → ℝ × ℝ) (M : M22 ℝ),
      (∀ᶠ q in 𝓝 p, raytraceOpt (singlePlaneO z (l.map (thin z))).reduced q.1 q.2 = some (f q.1 q.2)) ∧
      HasJac f M.a00 M.a01 M.a10 M.a11 p.1 p.2 := by
  have hp' : (⟨p.1, p.2⟩ : ℂ) ∉ starSet l := by
    rw [mem_starSet, ← mem_starPlaces]
    exact hp
  have hev : ∀ᶠ q in 𝓝 p, q ∉ starPlaces l := (Finset.finite_toSet (starPlaces l)).isClosed.isOpen_compl.mem_nhds hp
  let v : ℝ → ℝ → ℂ := fun x y => ⟨x, y⟩ - (l.map fun m => m.cdefl ⟨x, y⟩).sum
  have hf : ∀ᶠ q in 𝓝 p, raytraceOpt (singlePlaneO z (l.map (thin z))).reduced q.1 q.2 =
      some ((fun x y => ((v x y).re, (v x y).im)) q.1 q.2) := by
    filter_upwards [hev] with q hq
    refine (field_image z l q _).2 ⟨fun m hm he => hq (mem_starPlaces.2 ⟨m, hm, he⟩), rfl⟩
  obtain ⟨M, hM, -⟩ := field_det (z := z) (ζ := 0) (f := fun x y => ((v x y).re, (v x y).im)) hk hp' hf
  exact ⟨_, M, hf, hM⟩

/-- With point masses at `N` different places, the number of images is even when `N` is odd and odd when `N` is even. -/
theorem C139_parity (z : ℝ) (l : List FieldLens) (hok : ∀ m ∈ l, m.Ok)
    (hk : (l.map kappa).sum ≠ 1)
    (hdet : (1 - (l.map kappa).sum) ^ 2 ≠ (l.map gamma).sum.1 ^ 2 + (l.map gamma).sum.2 ^ 2)
    (b : ℝ × ℝ) (hb : (l.map gamma).sum = 0 → ∀ c ∈ starPlaces l, c ∉ fieldImages z (smoothPart l) b)
    (hreg : FieldRegular z l b) :
    (fieldImages z l b).ncard % 2 = ((starPlaces l).card + 1) % 2 := by
  have hk0 : ((1 - kappaSum l : ℝ) : ℂ) ≠ 0 := by
    rw [Complex.ofReal_ne_zero, sub_ne_zero]
    exact hk.symm
  have hm : ∀ i ∈ starSet l, ((massAt l i : ℝ) : ℂ) ≠ 0 := fun i hi => by
    rw [Complex.ofReal_ne_zero]
    exact (massAt_pos hok hi).ne'
  have hr := field_regular hk hreg
  rw [fieldImages_ncard, ← starSet_card]
  by_cases hg : (l.map gamma).sum = 0
  · have hg0 : (⟨(gammaSum l).1, (gammaSum l).2⟩ : ℂ) = 0 := by
      rw [gammaSum, hg]
      rfl
    rw [hg0] at hr ⊢
    refine star_unsheared_parity hk0 hm (fun i hi he => ?_) hr
    obtain ⟨c, hc, rfl⟩ := Finset.mem_image.1 hi
    exact hb hg c hc (smoothPart_image (k := ⟨c.1, c.2⟩) hg he)
  · refine star_sheared_parity hk0 (fun h => hg (mkC_injective (h.trans rfl))) ?_ hm hr
    rw [Complex.mul_conj, Complex.mul_conj, Complex.normSq_eq_norm_sq, Complex.normSq_eq_norm_sq, gammaSum_norm,
      Complex.norm_real, Real.norm_eq_abs, sq_abs]
    exact_mod_cast hdet

/-- There always is an image when the shear is smaller than one minus the convergence of the sheets, on a critical
curve or not. -/
theorem C139_exists (z : ℝ) (l : List FieldLens) (hok : ∀ m ∈ l, m.Ok) (hk : (l.map kappa).sum < 1)
    (hdet : (l.map gamma).sum.1 ^ 2 + (l.map gamma).sum.2 ^ 2 < (1 - (l.map kappa).sum) ^ 2) (b : ℝ × ℝ) :
    (fieldImages z l b).Nonempty := by
  obtain ⟨w, hw⟩ := star_exists (S := starSet l) (m := massAt l) (a := 1 - kappaSum l)
    (g := ⟨(gammaSum l).1, (gammaSum l).2⟩) (ζ := ⟨b.1, b.2⟩ - smoothConst l) (fun i hi => massAt_pos hok hi) (by
      refine lt_of_pow_lt_pow_left₀ 2 ?_ ?_
      · change 0 ≤ 1 - (l.map kappa).sum
        linarith
      · rw [gammaSum_norm]
        exact hdet)
  exact ⟨(w.re, w.im), (field_star_image z l (w.re, w.im) b).2 hw⟩

theorem field_finite (z : ℝ) (l : List FieldLens) (hok : ∀ m ∈ l, m.Ok) (hne : (starPlaces l).Nonempty)
    (hk : (l.map kappa).sum ≠ 1) (b : ℝ × ℝ)
    (hb : (l.map gamma).sum = 0 → ∀ c ∈ starPlaces l, c ∉ fieldImages z (smoothPart l) b) :
    (fieldImages z l b).Finite := by
  by_cases hg : (l.map gamma).sum = 0
  · exact (C131_unsheared z l hok hk hg b fun c hc => hb hg c (by simp [hc])).1
  · exact (C131_sheared z l hok hne hk hg b).1

/-- An odd number of point masses makes at least two images. -/
theorem C139_two (z : ℝ) (l : List FieldLens) (hok : ∀ m ∈ l, m.Ok) (hodd : (starPlaces l).card % 2 = 1)
    (hk : (l.map kappa).sum < 1)
    (hdet : (l.map gamma).sum.1 ^ 2 + (l.map gamma).sum.2 ^ 2 < (1 - (l.map kappa).sum) ^ 2) (b : ℝ × ℝ)
    (hb : (l.map gamma).sum = 0 → ∀ c ∈ starPlaces l, c ∉ fieldImages z (smoothPart l) b)
    (hreg : FieldRegular z l b) :
    2 ≤ (fieldImages z l b).ncard := by
  have hne : (starPlaces l).Nonempty := by
    rw [← Finset.card_pos]
    omega
  have h1 := (Set.ncard_pos (field_finite z l hok hne hk.ne b hb)).2 (C139_exists z l hok hk hdet b)
  have h2 := C139_parity z l hok hk.ne hdet.ne' b hb hreg
  omega

/-- One point mass in a field of sheets and shears makes two images or four. -/
theorem C139_one_star (z : ℝ) (l : List FieldLens) (hok : ∀ m ∈ l, m.Ok) (hone : (starPlaces l).card = 1)
    (hk : (l.map kappa).sum < 1)
    (hdet : (l.map gamma).sum.1 ^ 2 + (l.map gamma).sum.2 ^ 2 < (1 - (l.map kappa).sum) ^ 2) (b : ℝ × ℝ)
    (hb : (l.map gamma).sum = 0 → ∀ c ∈ starPlaces l, c ∉ fieldImages z (smoothPart l) b)
    (hreg : FieldRegular z l b) :
    ((fieldImages z l b).ncard = 2 ∨ (fieldImages z l b).ncard = 4) ∧
      ((l.map gamma).sum = 0 → (fieldImages z l b).ncard = 2) := by
  have hne : (starPlaces l).Nonempty := by
    rw [← Finset.card_pos]
    omega
  have h1 := C139_two z l hok (by omega) hk hdet b hb hreg
  have h2 := C139_parity z l hok hk.ne hdet.ne' b hb hreg
  rw [hone] at h2
  by_cases hg : (l.map gamma).sum = 0
  · have h3 := (C131_unsheared z l hok hk.ne hg b fun c hc => hb hg c (by simp [hc])).2
    rw [hone] at h3
    norm_num at h3
    have h4 : (fieldImages z l b).ncard = 2 := by omega
    exact ⟨Or.inl h4, fun _ => h4⟩
  · have h3 := (C131_sheared z l hok hne hk.ne hg b).2
    rw [hone] at h3
    norm_num at h3
    exact ⟨by omega, fun h => absurd h hg⟩

/-- Two point masses make one, three or five images; an image on a critical curve is needed for two or four. -/
theorem C139_two_stars (z : ℝ) (l : List FieldLens) (hok : ∀ m ∈ l, m.Ok) (htwo : (starPlaces l).card = 2)
    (hk : (l.map kappa).sum ≠ 1) (hg : (l.map gamma).sum = 0) (b : ℝ × ℝ)
    (hb : ∀ c ∈ starPlaces l, c ∉ fieldImages z (smoothPart l) b) (hreg : FieldRegular z l b) :
    (fieldImages z l b).ncard = 1 ∨ (fieldImages z l b).ncard = 3 ∨ (fieldImages z l b).ncard = 5 := by
  have h2 := C139_parity z l hok hk (by
    rw [hg]
    simp only [Prod.fst_zero, Prod.snd_zero, ne_eq, OfNat.ofNat_ne_zero, not_false_eq_true, zero_pow, add_zero]
    exact pow_ne_zero _ (sub_ne_zero.2 hk.symm)) b (fun _ => hb) hreg
  have h3 := (C131_unsheared z l hok hk hg b fun c hc => hb c (by simp [hc])).2
  rw [htwo] at h2 h3
  norm_num at h3
  omega

theorem starSet_single (x0 y0 R : ℝ) (l : List FieldLens) (h : ∀ m ∈ l, m.place = none) :
    starPlaces (.point x0 y0 R :: l) = {(x0, y0)} ∧ starSet (.point x0 y0 R :: l) = {(⟨x0, y0⟩ : ℂ)} := by
  have hpl : starPlaces (.point x0 y0 R :: l) = {(x0, y0)} := by
    ext c
    rw [mem_starPlaces, Finset.mem_singleton]
    constructor
    · rintro ⟨m, hm, he⟩
      rcases List.mem_cons.1 hm with rfl | hm
      · simpa [place, eq_comm] using he
      · rw [h m hm] at he
        exact absurd he (by simp)
    · rintro rfl
      exact ⟨_, List.mem_cons_self, rfl⟩
  refine ⟨hpl, ?_⟩
  rw [starSet, hpl, Finset.image_singleton]

/-- For one point mass alone every source that is not exactly behind it is regular. -/
theorem C139_point_regular (z x0 y0 R : ℝ) (b : ℝ × ℝ) (hb : b ≠ (x0, y0)) :
    FieldRegular z [.point x0 y0 R] b := by
  refine field_regular_of (by simp [kappa]) fun w hw hn => ?_
  have hS := (starSet_single x0 y0 R [] (by simp)).2
  have hm : massAt [.point x0 y0 R] (⟨x0, y0⟩ : ℂ) = R ^ 2 := by simp [massAt]
  have hk : kappaSum [.point x0 y0 R] = 0 := by simp [kappaSum, kappa]
  have hg : gammaSum [.point x0 y0 R] = 0 := by simp [gammaSum, gamma]
  have hc : smoothConst [.point x0 y0 R] = 0 := by simp [smoothConst]
  have h0 : (⟨0, 0⟩ : ℂ) = 0 := rfl
  rw [StarImage, hS, hk, hg, hc] at hw
  rw [starF', hS, hk, hg] at hn
  simp only [Finset.mem_singleton, Finset.sum_singleton, hm, sub_zero, Complex.ofReal_one, one_mul, Prod.fst_zero,
    Prod.snd_zero, h0, zero_mul, map_zero, zero_sub, map_one, div_one, norm_neg, norm_div, Complex.conj_ofReal,
    Complex.norm_real, norm_pow, Real.norm_eq_abs, sq_abs] at hw hn
  obtain ⟨h1, h2⟩ := hw
  have h3 : w - ⟨x0, y0⟩ ≠ 0 := sub_ne_zero.2 h1
  have h4 : 0 < ‖w - (⟨x0, y0⟩ : ℂ)‖ ^ 2 := by positivity
  rw [div_eq_one_iff_eq h4.ne'] at hn
  have h5 : (R ^ 2 : ℝ) / (conj w - conj (⟨x0, y0⟩ : ℂ)) = w - ⟨x0, y0⟩ := by
    rw [← map_sub, hn, ← Complex.normSq_eq_norm_sq, ← Complex.mul_conj,
      mul_div_cancel_right₀ _ ((map_ne_zero _).2 h3)]
  rw [h5, sub_sub_cancel] at h2
  exact hb (Prod.ext (congrArg Complex.re h2).symm (congrArg Complex.im h2).symm)

/-- A microlensed star: two images whatever its distance from the lens. -/
example (b : ℝ) (hb : b ≠ 0) : (fieldImages (1 / 2) [.point 0 0 1] (b, 0)).ncard = 2 := by
  have hpl := (starSet_single 0 0 1 [] (by simp)).1
  refine (C139_one_star (1 / 2) [.point 0 0 1] (by simp [Ok]) (by rw [hpl]; rfl) (by simp [kappa])
    (by simp [gamma, kappa]) (b, 0) (fun _ c hc => ?_)
    (C139_point_regular _ _ _ _ _ (by simpa using hb))).2 (by simp [gamma])
  rw [hpl, Finset.mem_singleton] at hc
  subst hc
  intro h
  have := ((field_image (1 / 2) (smoothPart [.point 0 0 1]) (0, 0) (b, 0)).1 h).2
  have := congrArg Complex.re this
  simp [smoothPart, place] at this
  exact hb this.symm

end Caustics

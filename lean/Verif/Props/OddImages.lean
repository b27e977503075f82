import Verif.Lemmas.OddImages
import Verif.Props.Softening
import Verif.Props.LensHalo
import Verif.Props.FarField
import Mathlib.Data.Set.Card
import Mathlib.Algebra.BigOperators.Finprod

/-!
C112: a circular lens without a singularity shows a source that is not on a caustic as an odd number of
images, one more of positive than of negative parity; for the lenses of caustics that is one or three.
-/

open Filter Topology Set Real

namespace Caustics

/-- The positions that `raytrace` sends to the source. -/
def imagesOf (alpha : ℝ → ℝ → Option (ℝ × ℝ)) (bx bys : ℝ) : Set (ℝ × ℝ) :=
  {p | raytraceOpt alpha p.1 p.2 = some (bx, bys)}

/-- The jacobian of the lens equation is `M` at `p`. -/
def LensJac (alpha : ℝ → ℝ → ℝ × ℝ) (p : ℝ × ℝ) (M : M22 ℝ) : Prop :=
  HasJac (fun x y => (x - (alpha x y).1, y - (alpha x y).2)) M.a00 M.a01 M.a10 M.a11 p.1 p.2

/-- No image of the source has a vanishing determinant. -/
def OffCaustic (alpha : ℝ → ℝ → ℝ × ℝ) (S : Set (ℝ × ℝ)) : Prop :=
  ∀ p ∈ S, ∀ M, LensJac alpha p M → M.a00 * M.a11 - M.a01 * M.a10 ≠ 0

/-- Finitely many images, an odd number, and the parities add up to one. -/
def OddImages (alpha : ℝ → ℝ → ℝ × ℝ) (S : Set (ℝ × ℝ)) : Prop :=
  S.Finite ∧ Odd S.ncard ∧ ∀ D : ℝ × ℝ → M22 ℝ, (∀ p ∈ S, LensJac alpha p (D p)) →
    ∑ᶠ p ∈ S, (SignType.sign ((D p).a00 * (D p).a11 - (D p).a01 * (D p).a10) : ℤ) = 1

/-- The deflection of a circular lens. -/
structure RadialLens (A : ℝ → ℝ) (x0 y0 : ℝ) (alphaO : ℝ → ℝ → Option (ℝ × ℝ)) (alpha : ℝ → ℝ → ℝ × ℝ) : Prop where
  eq : ∀ x y, alpha x y = (A (√((x - x0) ^ 2 + (y - y0) ^ 2)) * (x - x0) / √((x - x0) ^ 2 + (y - y0) ^ 2),
      A (√((x - x0) ^ 2 + (y - y0) ^ 2)) * (y - y0) / √((x - x0) ^ 2 + (y - y0) ^ 2))
  off : ∀ x y, (x, y) ≠ (x0, y0) → alphaO x y = some (alpha x y)
  centre : alphaO x0 y0 = none ∨ alphaO x0 y0 = some (0, 0)

/-- The images lie on the line through centre and source. -/
theorem RadialLens.image_iff {A : ℝ → ℝ} {x0 y0 : ℝ} {alphaO : ℝ → ℝ → Option (ℝ × ℝ)} {alpha : ℝ → ℝ → ℝ × ℝ}
    (H : RadialLens A x0 y0 alphaO alpha) {bx bys : ℝ} (hb : (bx, bys) ≠ (x0, y0)) (p : ℝ × ℝ) :
    p ∈ imagesOf alphaO bx bys ↔ ∃ t : ℝ, t - lineDefl A t = √((bx - x0) ^ 2 + (bys - y0) ^ 2) ∧
      p = (x0 + t / √((bx - x0) ^ 2 + (bys - y0) ^ 2) * (bx - x0), y0 + t / √((bx - x0) ^ 2 + (bys - y0) ^ 2) * (bys - y0)) := by
  obtain ⟨x, y⟩ := p
  have hb' := sub_ne_zero_pair hb
  have hβ := radius_pos hb'
  have hne : ∀ t, t - lineDefl A t = √((bx - x0) ^ 2 + (bys - y0) ^ 2) → t ≠ 0 := by
    rintro t ht rfl
    rw [lineDefl_zero] at ht
    linarith
  by_cases hc : (x, y) = (x0, y0)
  · obtain ⟨rfl, rfl⟩ := Prod.mk.inj hc
    constructor
    · intro h
      simp only [imagesOf, mem_ofPred_eq, raytraceOpt] at h
      rcases H.centre with h' | h' <;> rw [h'] at h
      · simp at h
      · simp at h
        exact absurd (by rw [← h.1, ← h.2]) hb
    · rintro ⟨t, ht, hp⟩
      have h0 := hne t ht
      rw [Prod.mk.injEq] at hp
      rcases hb' with hb' | hb'
      · exact absurd (by linarith [hp.1] : t / _ * (bx - x) = 0) (mul_ne_zero (div_ne_zero h0 hβ.ne') hb')
      · exact absurd (by linarith [hp.2] : t / _ * (bys - y) = 0) (mul_ne_zero (div_ne_zero h0 hβ.ne') hb')
  · have key := radial_image (A := A) (u := x - x0) (v := y - y0) hb'
    have h1 : (x, y) ∈ imagesOf alphaO bx bys ↔ (x - x0 ≠ 0 ∨ y - y0 ≠ 0) ∧
        x - x0 - A (√((x - x0) ^ 2 + (y - y0) ^ 2)) * (x - x0) / √((x - x0) ^ 2 + (y - y0) ^ 2) = bx - x0 ∧
        y - y0 - A (√((x - x0) ^ 2 + (y - y0) ^ 2)) * (y - y0) / √((x - x0) ^ 2 + (y - y0) ^ 2) = bys - y0 := by
      rw [and_iff_right (sub_ne_zero_pair hc)]
      simp only [imagesOf, mem_ofPred_eq, raytraceOpt]
      rw [H.off x y hc, H.eq]
      simp only [Option.bind_eq_bind, Option.bind_some, Option.pure_def, Option.some.injEq, Prod.mk.injEq]
      constructor <;> rintro ⟨h, h'⟩ <;> constructor <;> linarith
    rw [h1, key]
    constructor
    · rintro ⟨t, ht, he, hu, hv⟩
      refine ⟨t, by rw [← lineDefl_image ht, he], ?_⟩
      rw [← hu, ← hv]; simp
    · rintro ⟨t, he, hp⟩
      rw [Prod.mk.injEq] at hp
      refine ⟨t, hne t he, by rw [lineDefl_image (hne t he), he], by linarith [hp.1], by linarith [hp.2]⟩

/-- The determinant at the image at signed distance `t`. -/
theorem RadialLens.det {A A' : ℝ → ℝ} {x0 y0 : ℝ} {alphaO : ℝ → ℝ → Option (ℝ × ℝ)} {alpha : ℝ → ℝ → ℝ × ℝ}
    (H : RadialLens A x0 y0 alphaO alpha) (hd : ∀ r, 0 < r → HasDerivAt A (A' r) r) {bx bys : ℝ}
    (hb : (bx, bys) ≠ (x0, y0)) {t : ℝ} (ht : t - lineDefl A t = √((bx - x0) ^ 2 + (bys - y0) ^ 2)) {M : M22 ℝ}
    (hM : LensJac alpha (x0 + t / √((bx - x0) ^ 2 + (bys - y0) ^ 2) * (bx - x0),
      y0 + t / √((bx - x0) ^ 2 + (bys - y0) ^ 2) * (bys - y0)) M) :
    M.a00 * M.a11 - M.a01 * M.a10 = √((bx - x0) ^ 2 + (bys - y0) ^ 2) / t * (1 - A' |t|) := by
  have hβ := radius_pos (sub_ne_zero_pair hb)
  have h0 : t ≠ 0 := by
    rintro rfl
    rw [lineDefl_zero] at ht
    linarith
  have hdist := line_dist x0 y0 bx bys (t / √((bx - x0) ^ 2 + (bys - y0) ^ 2))
  rw [abs_div, abs_of_pos hβ, div_mul_cancel₀ _ hβ.ne'] at hdist
  have := C94_radial (A := A) (A' := A' |t|) (line_ne hb (div_ne_zero h0 hβ.ne'))
    (by rw [hdist]; exact hd _ (abs_pos.2 h0)) H.eq hM
  rw [this, hdist]
  congr 1
  have e := lineDefl_image (A := A) h0
  rw [ht] at e
  rw [← e]
  field_simp

theorem LensJac.exists {A A' : ℝ → ℝ} {x0 y0 : ℝ} {alphaO : ℝ → ℝ → Option (ℝ × ℝ)} {alpha : ℝ → ℝ → ℝ × ℝ}
    (H : RadialLens A x0 y0 alphaO alpha) (hd : ∀ r, 0 < r → HasDerivAt A (A' r) r) {p : ℝ × ℝ}
    (hp : p ≠ (x0, y0)) : ∃ M, LensJac alpha p M := by
  obtain ⟨x, y⟩ := p
  have h' := sub_ne_zero_pair hp
  have hj := hasJac_shift (hasJac_radial h' (hd _ (radius_pos h')))
  have e : alpha = _ := funext fun x => funext fun y => H.eq x y
  rw [← e] at hj
  exact ⟨⟨_, _, _, _⟩, (HasGrad.fst x y).sub hj.1, (HasGrad.snd x y).sub hj.2⟩

/-- A circular lens whose deflection is bounded and vanishes towards the centre. -/
theorem C112_radial {A A' : ℝ → ℝ} {x0 y0 K : ℝ} {alphaO : ℝ → ℝ → Option (ℝ × ℝ)} {alpha : ℝ → ℝ → ℝ × ℝ}
    (H : RadialLens A x0 y0 alphaO alpha) (hd : ∀ r, 0 < r → HasDerivAt A (A' r) r) (h0 : Tendsto A (𝓝[>] 0) (𝓝 0))
    (hK : ∀ r, 0 < r → |A r| ≤ K) {bx bys : ℝ} (hb : (bx, bys) ≠ (x0, y0))
    (hreg : OffCaustic alpha (imagesOf alphaO bx bys)) : OddImages alpha (imagesOf alphaO bx bys) := by
  have hβ := radius_pos (sub_ne_zero_pair hb)
  have hmem := H.image_iff hb
  have hdet := @RadialLens.det _ _ _ _ _ _ H hd _ _ hb
  set S := imagesOf alphaO bx bys with hS
  set β := √((bx - x0) ^ 2 + (bys - y0) ^ 2) with hβd
  set φ : ℝ → ℝ × ℝ := fun t => (x0 + t / β * (bx - x0), y0 + t / β * (bys - y0)) with hφ
  have hne : ∀ t, t - lineDefl A t = β → t ≠ 0 := by
    rintro t ht rfl
    rw [lineDefl_zero] at ht
    linarith
  have hφne : ∀ t, t - lineDefl A t = β → φ t ≠ (x0, y0) := fun t ht => line_ne hb (div_ne_zero (hne t ht) hβ.ne')
  obtain ⟨Z, hZ, hpos, hneg⟩ := line_count hβ hd h0 hK (fun t ht h1 => by
    obtain ⟨M, hM⟩ := LensJac.exists H hd (hφne t ht)
    refine hreg (φ t) ((hmem _).2 ⟨t, ht, rfl⟩) M hM ?_
    rw [hdet ht hM, h1, sub_self, mul_zero])
  have hinj : Function.Injective φ := by
    intro s t hst
    rw [hφ, Prod.mk.injEq] at hst
    have : s / β = t / β := by
      rcases sub_ne_zero_pair hb with h | h
      · exact mul_right_cancel₀ h (by linarith [hst.1])
      · exact mul_right_cancel₀ h (by linarith [hst.2])
    field_simp at this
    exact this
  classical
  have hSZ : S = ↑(Z.image φ) := by
    ext p
    rw [hmem p, Finset.coe_image, mem_image]
    constructor
    · rintro ⟨t, ht, rfl⟩; exact ⟨t, (hZ t).2 ht, rfl⟩
    · rintro ⟨t, ht, rfl⟩; exact ⟨t, (hZ t).1 ht, rfl⟩
  have hsplit : ∀ s : ℝ → ℤ, ∑ t ∈ Z, s t = ∑ t ∈ Z with 0 < t, s t + ∑ t ∈ Z with t < 0, s t := by
    intro s
    rw [← Finset.sum_filter_add_sum_filter_not Z (fun t => 0 < t)]
    congr 1
    refine Finset.sum_congr (Finset.filter_congr fun t ht => ?_) fun _ _ => rfl
    exact ⟨fun h => lt_of_le_of_ne (not_lt.1 h) (hne t ((hZ t).1 ht)), fun h => h.not_gt⟩
  have hsum : ∀ D : ℝ × ℝ → M22 ℝ, (∀ p ∈ S, LensJac alpha p (D p)) →
      ∑ t ∈ Z, (SignType.sign ((D (φ t)).a00 * (D (φ t)).a11 - (D (φ t)).a01 * (D (φ t)).a10) : ℤ) = 1 := by
    intro D hD
    rw [hsplit]
    have e : ∀ t ∈ Z, (SignType.sign ((D (φ t)).a00 * (D (φ t)).a11 - (D (φ t)).a01 * (D (φ t)).a10) : ℤ)
        = SignType.sign t * SignType.sign (1 - A' |t|) := by
      intro t ht
      have ht' := (hZ t).1 ht
      rw [hdet ht' (hD _ ((hmem _).2 ⟨t, ht', rfl⟩)), sign_mul, SignType.coe_mul]
      congr 2
      rcases lt_or_gt_of_ne (hne t ht') with h | h
      · rw [sign_neg h, sign_neg (div_neg_of_pos_of_neg hβ h)]
      · rw [sign_pos h, sign_pos (div_pos hβ h)]
    rw [Finset.sum_congr rfl fun t ht => e t (Finset.mem_of_mem_filter t ht),
      Finset.sum_congr (s₁ := Z.filter (· < 0)) rfl fun t ht => e t (Finset.mem_of_mem_filter t ht)]
    rw [Finset.sum_congr (g := fun t => (SignType.sign (1 - A' |t|) : ℤ)) rfl fun t ht => by
        rw [sign_pos (Finset.mem_filter.1 ht).2, SignType.coe_one, one_mul],
      Finset.sum_congr (s₁ := Z.filter (· < 0)) (g := fun t => -(SignType.sign (1 - A' |t|) : ℤ)) rfl fun t ht => by
        rw [sign_neg (Finset.mem_filter.1 ht).2, SignType.coe_neg_one, neg_one_mul],
      Finset.sum_neg_distrib, hpos, hneg]
    rfl
  refine ⟨hSZ ▸ Finset.finite_toSet _, ?_, ?_⟩
  · rw [hSZ, Set.ncard_coe_finset, Finset.card_image_of_injective _ hinj]
    choose D hD using fun p : ℝ × ℝ => show ∃ M, p ∈ S → LensJac alpha p M by
      by_cases hp : p ∈ S
      · obtain ⟨t, ht, rfl⟩ := (hmem p).1 hp
        obtain ⟨M, hM⟩ := LensJac.exists H hd (hφne t ht)
        exact ⟨M, fun _ => hM⟩
      · exact ⟨⟨0, 0, 0, 0⟩, fun h => absurd h hp⟩
    refine card_odd_of_sum (fun t ht => ?_) ((hsum D hD) ▸ odd_one)
    have hS' : φ t ∈ S := (hmem _).2 ⟨t, (hZ t).1 ht, rfl⟩
    have hn := hreg _ hS' _ (hD _ hS')
    rcases lt_or_gt_of_ne hn with h | h
    · right; rw [sign_neg h]; rfl
    · left; rw [sign_pos h]; rfl
  · intro D hD
    rw [← hsum D hD, hSZ, finsum_mem_coe_finset, Finset.sum_image fun _ _ _ _ h => hinj h]

/-- If the mean convergence falls outwards and `A' = 1` at one radius at most, there are at most three images. -/
theorem C112_radial_three {A A' : ℝ → ℝ} {x0 y0 : ℝ} {alphaO : ℝ → ℝ → Option (ℝ × ℝ)} {alpha : ℝ → ℝ → ℝ × ℝ}
    (H : RadialLens A x0 y0 alphaO alpha) (hd : ∀ r, 0 < r → HasDerivAt A (A' r) r)
    (hmean : ∀ r u, 0 < r → r < u → A u / u < A r / r) (hone : ∀ r u, 0 < r → r < u → A' r = 1 → A' u ≠ 1)
    {bx bys : ℝ} (hb : (bx, bys) ≠ (x0, y0)) : (imagesOf alphaO bx bys).encard ≤ 3 := by
  have hβ := radius_pos (sub_ne_zero_pair hb)
  have hmem := H.image_iff hb
  set S := imagesOf alphaO bx bys with hS
  set β := √((bx - x0) ^ 2 + (bys - y0) ^ 2) with hβd
  set φ : ℝ → ℝ × ℝ := fun t => (x0 + t / β * (bx - x0), y0 + t / β * (bys - y0)) with hφ
  set P : Set ℝ := {t | 0 < t ∧ t - lineDefl A t = β} with hP
  set N : Set ℝ := {t | 0 < t ∧ A t - t = β} with hN
  have hsub : S ⊆ φ '' P ∪ (fun t => φ (-t)) '' N := by
    intro p hp
    obtain ⟨t, ht, rfl⟩ := (hmem p).1 hp
    rcases lt_trichotomy t 0 with h | h | h
    · right
      refine ⟨-t, ⟨by linarith, ?_⟩, by simp only [neg_neg]; rfl⟩
      rw [lineDefl_neg h] at ht
      linarith
    · rw [h, lineDefl_zero] at ht
      linarith
    · left; exact ⟨t, ⟨h, ht⟩, rfl⟩
  have hP1 : P.encard ≤ 1 := by
    rw [Set.encard_le_one_iff]
    have key : ∀ r u, r ∈ P → u ∈ P → ¬ r < u := by
      rintro r u ⟨h1, h2⟩ ⟨h3, h4⟩ hlt
      rw [lineDefl_pos h1] at h2
      rw [lineDefl_pos h3] at h4
      have hm := hmean r u h1 hlt
      have e1 : r * (1 - A r / r) = β := by rw [← h2]; field_simp
      have e2 : u * (1 - A u / u) = β := by rw [← h4]; field_simp
      have hpos : 0 < 1 - A r / r := by
        by_contra hc
        have := mul_nonpos_of_nonneg_of_nonpos h1.le (not_lt.1 hc)
        linarith
      nlinarith
    intro r u hr hu
    exact le_antisymm (not_lt.1 (key u r hu hr)) (not_lt.1 (key r u hr hu))
  have rolle : ∀ r u, r ∈ N → u ∈ N → r < u → ∃ c ∈ Ioo r u, A' c = 1 := by
    rintro r u ⟨h1, h2⟩ ⟨h3, h4⟩ hlt
    have hder : ∀ c, 0 < c → HasDerivAt (fun t => A t - t) (A' c - 1) c := fun c hc => (hd c hc).sub (hasDerivAt_id c)
    obtain ⟨c, hc, h⟩ := exists_hasDerivAt_eq_zero hlt
      (fun c hc => (hder c (h1.trans_le hc.1)).continuousAt.continuousWithinAt) (h2.trans h4.symm)
      fun c hc => hder c (h1.trans hc.1)
    exact ⟨c, hc, by linarith⟩
  have hN3 : ∀ a b c, a ∈ N → b ∈ N → c ∈ N → a < b → b < c → False := by
    intro a b c ha hb' hc hab hbc
    obtain ⟨r, hr, h1⟩ := rolle a b ha hb' hab
    obtain ⟨u, hu, h2⟩ := rolle b c hb' hc hbc
    exact hone r u (ha.1.trans hr.1) (hr.2.trans hu.1) h1 h2
  have hN2 : N.encard ≤ 2 := by
    by_contra hlt
    have h3 : (3 : ℕ∞) ≤ N.encard := by
      have := Order.add_one_le_of_lt (not_le.1 hlt)
      norm_num at this
      exact this
    obtain ⟨T, hT, hc⟩ := Set.exists_subset_encard_eq h3
    obtain ⟨a, b, c, hab, hac, hbc, rfl⟩ := Set.encard_eq_three.1 hc
    have ha : a ∈ N := hT (by simp)
    have hb' : b ∈ N := hT (by simp)
    have hc' : c ∈ N := hT (by simp)
    rcases lt_or_gt_of_ne hab with h1 | h1 <;> rcases lt_or_gt_of_ne hac with h2 | h2 <;>
      rcases lt_or_gt_of_ne hbc with h3 | h3
    · exact hN3 _ _ _ ha hb' hc' h1 h3
    · exact hN3 _ _ _ ha hc' hb' h2 h3
    · linarith
    · exact hN3 _ _ _ hc' ha hb' h2 h1
    · exact hN3 _ _ _ hb' ha hc' h1 h2
    · linarith
    · exact hN3 _ _ _ hb' hc' ha h3 h2
    · exact hN3 _ _ _ hc' hb' ha h3 h1
  calc S.encard ≤ (φ '' P ∪ (fun t => φ (-t)) '' N).encard := Set.encard_le_encard hsub
    _ ≤ (φ '' P).encard + ((fun t => φ (-t)) '' N).encard := Set.encard_union_le _ _
    _ ≤ 1 + 2 := add_le_add ((Set.encard_image_le _ _).trans hP1) ((Set.encard_image_le _ _).trans hN2)
    _ = 3 := by norm_num

/-- Odd and at most three is one or three. -/
theorem one_or_three {S : Set (ℝ × ℝ)} (h3 : S.encard ≤ 3) (ho : Odd S.ncard) : S.ncard = 1 ∨ S.ncard = 3 := by
  have : S.ncard ≤ 3 := by
    have hf : S.Finite := Set.finite_of_encard_le_coe (k := 3) h3
    rw [← hf.cast_ncard_eq] at h3
    exact_mod_cast h3
  obtain ⟨k, hk⟩ := ho
  omega

/-! ### the softened isothermal sphere and point mass -/

theorem radialLens_sis {x0 y0 Rein s : ℝ} (hs : 0 < s) :
    RadialLens (fun r => Rein * r / (r + s)) x0 y0 (sisDeflectionOpt x0 y0 Rein s) (sisDeflection x0 y0 Rein s) := by
  have key : ∀ x y, sisDeflectionOpt x0 y0 Rein s x y = some (sisDeflection x0 y0 Rein s x y) := fun x y =>
    sisDeflectionOpt_eq (by positivity)
  refine ⟨fun x y => ?_, fun x y _ => key x y, Or.inr ?_⟩
  · simp only [sisDeflection, translateRotate]
    by_cases h : (x, y) = (x0, y0)
    · obtain ⟨rfl, rfl⟩ := Prod.mk.inj h
      simp
    · have hr := radius_pos (sub_ne_zero_pair h)
      ext <;> simp only <;> field_simp
  · rw [key]; simp [sisDeflection, translateRotate]

theorem radialLens_point {x0 y0 Rein s : ℝ} (hs : 0 < s) :
    RadialLens (fun r => Rein ^ 2 * r / (r + s) ^ 2) x0 y0 (pointDeflectionOpt x0 y0 Rein s) (pointDeflection x0 y0 Rein s) := by
  have key : ∀ x y, pointDeflectionOpt x0 y0 Rein s x y = some (pointDeflection x0 y0 Rein s x y) := fun x y =>
    pointDeflectionOpt_eq (by positivity)
  refine ⟨fun x y => ?_, fun x y _ => key x y, Or.inr ?_⟩
  · simp only [pointDeflection, translateRotate]
    by_cases h : (x, y) = (x0, y0)
    · obtain ⟨rfl, rfl⟩ := Prod.mk.inj h
      simp
    · have hr := radius_pos (sub_ne_zero_pair h)
      ext <;> simp only <;> field_simp
  · rw [key]; simp [pointDeflection, translateRotate]

theorem hasDerivAt_softSis {Rein s r : ℝ} (hs : 0 < s) (hr : 0 < r) :
    HasDerivAt (fun r => Rein * r / (r + s)) (Rein * s / (r + s) ^ 2) r := by
  refine (((hasDerivAt_id r).const_mul Rein).div ((hasDerivAt_id r).add_const s) (by simp only [id]; positivity)).congr_deriv ?_
  simp only [id]
  field_simp
  ring

theorem hasDerivAt_softPoint {Rein s r : ℝ} (hs : 0 < s) (hr : 0 < r) :
    HasDerivAt (fun r => Rein ^ 2 * r / (r + s) ^ 2) (Rein ^ 2 * (s - r) / (r + s) ^ 3) r := by
  refine (((hasDerivAt_id r).const_mul (Rein ^ 2)).div (((hasDerivAt_id r).add_const s).pow 2)
    (by simp only [id, Pi.pow_apply]; positivity)).congr_deriv ?_
  simp only [id, Pi.pow_apply]
  field_simp
  ring

/-- Softened isothermal sphere: one or three images. -/
theorem C112_sis {x0 y0 Rein s : ℝ} (hR : 0 < Rein) (hs : 0 < s) {bx bys : ℝ} (hb : (bx, bys) ≠ (x0, y0)) :
    let S := imagesOf (sisDeflectionOpt x0 y0 Rein s) bx bys
    S.encard ≤ 3 ∧ (OffCaustic (sisDeflection x0 y0 Rein s) S →
      OddImages (sisDeflection x0 y0 Rein s) S ∧ (S.ncard = 1 ∨ S.ncard = 3)) := by
  intro S
  have h3 : S.encard ≤ 3 := by
    refine C112_radial_three (radialLens_sis hs) (fun r hr => hasDerivAt_softSis hs hr) (fun r u hr hu => ?_)
      (fun r u hr hu h1 h2 => ?_) hb
    · have h0 : 0 < u := hr.trans hu
      have e : ∀ w, 0 < w → Rein * w / (w + s) / w = Rein / (w + s) := fun w hw => by field_simp
      rw [e u h0, e r hr]
      gcongr
    · have : Rein * s / (u + s) ^ 2 < Rein * s / (r + s) ^ 2 := by gcongr
      linarith
  refine ⟨h3, fun hreg => ?_⟩
  have hodd : OddImages (sisDeflection x0 y0 Rein s) S := by
    refine C112_radial (K := Rein) (radialLens_sis hs) (fun r hr => hasDerivAt_softSis hs hr) ?_ (fun r hr => ?_) hb hreg
    · have : ContinuousAt (fun r => Rein * r / (r + s)) 0 :=
        (continuousAt_const.mul continuousAt_id).div (continuousAt_id.add continuousAt_const) (by simp [hs.ne'])
      simpa [ContinuousAt] using this.tendsto.mono_left nhdsWithin_le_nhds
    · rw [abs_of_pos (by positivity), div_le_iff₀ (by positivity)]
      nlinarith
  exact ⟨hodd, one_or_three h3 hodd.2.1⟩

/-- Softened point mass: one or three images (without softening there are two: `C78`). -/
theorem C112_point {x0 y0 Rein s : ℝ} (hR : 0 < Rein) (hs : 0 < s) {bx bys : ℝ} (hb : (bx, bys) ≠ (x0, y0)) :
    let S := imagesOf (pointDeflectionOpt x0 y0 Rein s) bx bys
    S.encard ≤ 3 ∧ (OffCaustic (pointDeflection x0 y0 Rein s) S →
      OddImages (pointDeflection x0 y0 Rein s) S ∧ (S.ncard = 1 ∨ S.ncard = 3)) := by
  intro S
  have h3 : S.encard ≤ 3 := by
    refine C112_radial_three (radialLens_point hs) (fun r hr => hasDerivAt_softPoint hs hr) (fun r u hr hu => ?_)
      (fun r u hr hu h1 h2 => ?_) hb
    · have h0 : 0 < u := hr.trans hu
      have e : ∀ w, 0 < w → Rein ^ 2 * w / (w + s) ^ 2 / w = Rein ^ 2 / (w + s) ^ 2 := fun w hw => by field_simp
      rw [e u h0, e r hr]
      gcongr
    · have h0 : 0 < u := hr.trans hu
      have hus : 0 < s - u := by
        by_contra hc
        have : Rein ^ 2 * (s - u) / (u + s) ^ 3 ≤ 0 :=
          div_nonpos_of_nonpos_of_nonneg (mul_nonpos_of_nonneg_of_nonpos (by positivity) (not_lt.1 hc)) (by positivity)
        linarith
      have hrs : 0 < s - r := by linarith
      have : Rein ^ 2 * (s - u) / (u + s) ^ 3 < Rein ^ 2 * (s - r) / (r + s) ^ 3 := by
        gcongr
      linarith
  refine ⟨h3, fun hreg => ?_⟩
  have hodd : OddImages (pointDeflection x0 y0 Rein s) S := by
    refine C112_radial (K := Rein ^ 2 / s) (radialLens_point hs) (fun r hr => hasDerivAt_softPoint hs hr) ?_ (fun r hr => ?_) hb hreg
    · have : ContinuousAt (fun r => Rein ^ 2 * r / (r + s) ^ 2) 0 :=
        (continuousAt_const.mul continuousAt_id).div ((continuousAt_id.add continuousAt_const).pow 2) (by simp [hs.ne'])
      simpa [ContinuousAt] using this.tendsto.mono_left nhdsWithin_le_nhds
    · rw [abs_of_pos (by positivity), div_le_div_iff₀ (by positivity) hs]
      have : r * s ≤ (r + s) ^ 2 := by nlinarith
      nlinarith [sq_nonneg Rein]
  exact ⟨hodd, one_or_three h3 hodd.2.1⟩

/-! ### pseudo Jaffe -/

theorem pj_root_facts {c σ r u : ℝ} (hc : 0 < c) (hcσ : c < σ) (hr : 0 < r) (hu : r < u) :
    √(c ^ 2 + r ^ 2) < √(c ^ 2 + u ^ 2) ∧ √(σ ^ 2 + r ^ 2) < √(σ ^ 2 + u ^ 2) ∧
      √(σ ^ 2 + u ^ 2) - √(σ ^ 2 + r ^ 2) < √(c ^ 2 + u ^ 2) - √(c ^ 2 + r ^ 2) ∧
      √(c ^ 2 + r ^ 2) * √(σ ^ 2 + u ^ 2) < √(σ ^ 2 + r ^ 2) * √(c ^ 2 + u ^ 2) := by
  have hσ : 0 < σ := hc.trans hcσ
  have hu0 : 0 < u := hr.trans hu
  have hru : r ^ 2 < u ^ 2 := by gcongr
  have hcs : c ^ 2 < σ ^ 2 := by gcongr
  have h1 : √(c ^ 2 + r ^ 2) < √(c ^ 2 + u ^ 2) := by apply sqrt_lt_sqrt <;> [positivity; linarith]
  have h2 : √(σ ^ 2 + r ^ 2) < √(σ ^ 2 + u ^ 2) := by apply sqrt_lt_sqrt <;> [positivity; linarith]
  have h3 : √(c ^ 2 + r ^ 2) < √(σ ^ 2 + r ^ 2) := by apply sqrt_lt_sqrt <;> [positivity; linarith]
  have h4 : √(c ^ 2 + u ^ 2) < √(σ ^ 2 + u ^ 2) := by apply sqrt_lt_sqrt <;> [positivity; linarith]
  have p1 : 0 < √(c ^ 2 + r ^ 2) := sqrt_pos.2 (by positivity)
  refine ⟨h1, h2, ?_, ?_⟩
  · have e1 : √(c ^ 2 + r ^ 2) ^ 2 = c ^ 2 + r ^ 2 := sq_sqrt (by positivity)
    have e2 : √(c ^ 2 + u ^ 2) ^ 2 = c ^ 2 + u ^ 2 := sq_sqrt (by positivity)
    have e3 : √(σ ^ 2 + r ^ 2) ^ 2 = σ ^ 2 + r ^ 2 := sq_sqrt (by positivity)
    have e4 : √(σ ^ 2 + u ^ 2) ^ 2 = σ ^ 2 + u ^ 2 := sq_sqrt (by positivity)
    generalize √(c ^ 2 + r ^ 2) = a at *
    generalize √(c ^ 2 + u ^ 2) = b at *
    generalize √(σ ^ 2 + r ^ 2) = d at *
    generalize √(σ ^ 2 + u ^ 2) = e at *
    by_contra hcon
    have f1 : (e - d) * (e + d) = (b - a) * (b + a) := by linarith [e1, e2, e3, e4, sq_nonneg (e - d)]
    nlinarith
  · rw [← sqrt_mul (by positivity), ← sqrt_mul (by positivity)]
    apply sqrt_lt_sqrt (by positivity)
    nlinarith

theorem pj_mean_anti {c σ r u : ℝ} (hc : 0 < c) (hcσ : c < σ) (hr : 0 < r) (hu : r < u) :
    1 / (c + √(c ^ 2 + u ^ 2)) - 1 / (σ + √(σ ^ 2 + u ^ 2)) < 1 / (c + √(c ^ 2 + r ^ 2)) - 1 / (σ + √(σ ^ 2 + r ^ 2)) := by
  have hσ : 0 < σ := hc.trans hcσ
  obtain ⟨h1, h2, h3, -⟩ := pj_root_facts hc hcσ hr hu
  have p1 : 0 < √(c ^ 2 + r ^ 2) := sqrt_pos.2 (by positivity)
  have h5 : √(c ^ 2 + r ^ 2) < √(σ ^ 2 + r ^ 2) := by apply sqrt_lt_sqrt <;> [positivity; gcongr]
  have h6 : √(c ^ 2 + u ^ 2) < √(σ ^ 2 + u ^ 2) := by apply sqrt_lt_sqrt <;> [positivity; gcongr]
  generalize √(c ^ 2 + r ^ 2) = a at *
  generalize √(c ^ 2 + u ^ 2) = b at *
  generalize √(σ ^ 2 + r ^ 2) = d at *
  generalize √(σ ^ 2 + u ^ 2) = e at *
  have hb : 0 < b := p1.trans h1
  have hd : 0 < d := p1.trans h5
  have he : 0 < e := hd.trans h2
  have e1 : 1 / (σ + d) - 1 / (σ + e) = (e - d) / ((σ + d) * (σ + e)) := by field_simp; ring
  have e2 : 1 / (c + a) - 1 / (c + b) = (b - a) / ((c + a) * (c + b)) := by field_simp; ring
  have : (e - d) / ((σ + d) * (σ + e)) < (b - a) / ((c + a) * (c + b)) := by
    apply div_lt_div₀' h3.le _ (by linarith) (by positivity)
    exact mul_lt_mul'' (by linarith) (by linarith) (by positivity) (by positivity)
  linarith

theorem pj_slope_anti {c σ r u : ℝ} (hc : 0 < c) (hcσ : c < σ) (hr : 0 < r) (hu : r < u)
    (hpos : 0 < (1 / √(c ^ 2 + u ^ 2) - 1 / (c + √(c ^ 2 + u ^ 2))) - (1 / √(σ ^ 2 + u ^ 2) - 1 / (σ + √(σ ^ 2 + u ^ 2)))) :
    (1 / √(c ^ 2 + u ^ 2) - 1 / (c + √(c ^ 2 + u ^ 2))) - (1 / √(σ ^ 2 + u ^ 2) - 1 / (σ + √(σ ^ 2 + u ^ 2))) <
      (1 / √(c ^ 2 + r ^ 2) - 1 / (c + √(c ^ 2 + r ^ 2))) - (1 / √(σ ^ 2 + r ^ 2) - 1 / (σ + √(σ ^ 2 + r ^ 2))) := by
  have hσ : 0 < σ := hc.trans hcσ
  obtain ⟨h1, h2, h3, h4⟩ := pj_root_facts hc hcσ hr hu
  have p1 : 0 < √(c ^ 2 + r ^ 2) := sqrt_pos.2 (by positivity)
  have h5 : √(c ^ 2 + r ^ 2) < √(σ ^ 2 + r ^ 2) := by apply sqrt_lt_sqrt <;> [positivity; gcongr]
  generalize √(c ^ 2 + r ^ 2) = a at *
  generalize √(c ^ 2 + u ^ 2) = b at *
  generalize √(σ ^ 2 + r ^ 2) = d at *
  generalize √(σ ^ 2 + u ^ 2) = e at *
  have hb : 0 < b := p1.trans h1
  have hd : 0 < d := p1.trans h5
  have he : 0 < e := hd.trans h2
  have form : ∀ k w : ℝ, 0 < k → 0 < w → 1 / w - 1 / (k + w) = k / (w * (k + w)) := fun k w hk hw => by field_simp; ring
  rw [form c b hc hb, form σ e hσ he] at hpos ⊢
  rw [form c a hc p1, form σ d hσ hd]
  have hcross : σ / (d * (σ + d)) * (c / (b * (c + b))) < c / (a * (c + a)) * (σ / (e * (σ + e))) := by
    rw [div_mul_div_comm, div_mul_div_comm, mul_comm c σ]
    apply div_lt_div_of_pos_left (by positivity) (by positivity)
    have hk : (c + a) * (σ + e) < (σ + d) * (c + b) := by nlinarith
    calc a * (c + a) * (e * (σ + e)) = (a * e) * ((c + a) * (σ + e)) := by ring
      _ < (d * b) * ((σ + d) * (c + b)) := mul_lt_mul'' h4 hk (by positivity) (by positivity)
      _ = _ := by ring
  have hge : σ / (e * (σ + e)) < σ / (d * (σ + d)) := by
    apply div_lt_div_of_pos_left hσ (by positivity)
    exact mul_lt_mul'' h2 (by linarith) hd.le (by positivity)
  have q1 : 0 < σ / (e * (σ + e)) := by positivity
  have q2 : 0 < σ / (d * (σ + d)) := by positivity
  generalize σ / (e * (σ + e)) = gsu at *
  generalize σ / (d * (σ + d)) = gsr at *
  generalize c / (b * (c + b)) = gcu at *
  generalize c / (a * (c + a)) = gcr at *
  by_contra hcon
  nlinarith

/-- The radial deflection of a pseudo Jaffe lens. -/
noncomputable def pjRadial (C c σ r : ℝ) : ℝ := C * (r / (c + √(c ^ 2 + r ^ 2)) - r / (σ + √(σ ^ 2 + r ^ 2)))

/-- Its slope. -/
noncomputable def pjSlope (C c σ r : ℝ) : ℝ :=
  C * ((1 / √(c ^ 2 + r ^ 2) - 1 / (c + √(c ^ 2 + r ^ 2))) - (1 / √(σ ^ 2 + r ^ 2) - 1 / (σ + √(σ ^ 2 + r ^ 2))))

theorem pjRadial_swap (C c σ : ℝ) : pjRadial C c σ = pjRadial (-C) σ c ∧ pjSlope C c σ = pjSlope (-C) σ c := by
  constructor <;> funext r
  · simp only [pjRadial]; ring
  · simp only [pjSlope]; ring

theorem pj_conditions {C c σ : ℝ} (hc : 0 < c) (hσ : 0 < σ) (hC : 0 < C * (σ - c)) :
    (∀ r u, 0 < r → r < u → pjRadial C c σ u / u < pjRadial C c σ r / r) ∧
      ∀ r u, 0 < r → r < u → pjSlope C c σ r = 1 → pjSlope C c σ u ≠ 1 := by
  wlog hlt : c < σ generalizing C c σ
  · have hne : c ≠ σ := by rintro rfl; simp at hC
    rw [(pjRadial_swap C c σ).1, (pjRadial_swap C c σ).2]
    exact this hσ hc (by linarith) (lt_of_le_of_ne (not_lt.1 hlt) hne.symm)
  have hC0 : 0 < C := pos_of_mul_pos_left hC (by linarith)
  constructor
  · intro r u hr hu
    have e : ∀ w, 0 < w → pjRadial C c σ w / w = C * (1 / (c + √(c ^ 2 + w ^ 2)) - 1 / (σ + √(σ ^ 2 + w ^ 2))) := by
      intro w hw
      have h1 : 0 < √(c ^ 2 + w ^ 2) := sqrt_pos.2 (by positivity)
      have h2 : 0 < √(σ ^ 2 + w ^ 2) := sqrt_pos.2 (by positivity)
      simp only [pjRadial]
      field_simp
    rw [e u (hr.trans hu), e r hr]
    exact mul_lt_mul_of_pos_left (pj_mean_anti hc hlt hr hu) hC0
  · intro r u hr hu h1 h2
    have := pj_slope_anti hc hlt hr hu (by
      by_contra hcon
      have := mul_nonpos_of_nonneg_of_nonpos hC0.le (not_lt.1 hcon)
      rw [pjSlope] at h2
      linarith)
    have := mul_lt_mul_of_pos_left this hC0
    simp only [pjSlope] at h1 h2
    linarith

theorem pj_shape_le {a r : ℝ} (ha : 0 < a) (hr : 0 < r) : |r / (a + √(a ^ 2 + r ^ 2))| ≤ 1 := by
  have h1 : r ≤ √(a ^ 2 + r ^ 2) := le_sqrt_of_sq_le (by nlinarith)
  have h0 : 0 < √(a ^ 2 + r ^ 2) := hr.trans_le h1
  rw [abs_of_pos (by positivity), div_le_one (by positivity)]
  linarith

theorem radialLens_pj (L : PJaffe) (hL : L.Ok) (hs : L.s = 0) :
    RadialLens (pjRadial (2 * pjKappa0 L.mass L.Rc L.Rs L.d_l L.sigmacr * L.Rc * L.Rs / (L.Rs - L.Rc)) L.Rc L.Rs)
      L.x0 L.y0 L.deflectionOpt L.deflection := by
  refine ⟨fun x y => L.deflection_eq hL hs x y, fun x y h => ?_, Or.inl ?_⟩
  · refine L.deflectionOpt_eq hL ?_
    rw [hs, add_zero]
    exact radius_pos (sub_ne_zero_pair h)
  · simp only [PJaffe.deflectionOpt, translateRotate, hs, sub_self]
    norm_num [sqrtOpt, divOpt]

/-- Pseudo Jaffe lens as its class evaluates it (the softening is left out of the call): at most three
images of any source, one or three if the source is not on a caustic. -/
theorem C112_pseudo_jaffe (L : PJaffe) (hL : L.Ok) (hs : L.s = 0) (hm : 0 < L.mass) {bx bys : ℝ}
    (hb : (bx, bys) ≠ (L.x0, L.y0)) :
    let S := imagesOf L.classDeflectionOpt bx bys
    S.encard ≤ 3 ∧ (OffCaustic L.deflection S → OddImages L.deflection S ∧ (S.ncard = 1 ∨ S.ncard = 3)) := by
  have e : L.classDeflectionOpt = L.deflectionOpt := by
    funext x y
    rw [PJaffe.classDeflectionOpt, ← hs]
  rw [e]
  intro S
  have H := radialLens_pj L hL hs
  have hd : ∀ C r, 0 < r → HasDerivAt (pjRadial C L.Rc L.Rs) (pjSlope C L.Rc L.Rs r) r := fun C r hr =>
    ((hasDerivAt_pj_shape hL.Rc hr).sub (hasDerivAt_pj_shape hL.Rs hr)).const_mul C
  have hC : 0 < 2 * pjKappa0 L.mass L.Rc L.Rs L.d_l L.sigmacr * L.Rc * L.Rs / (L.Rs - L.Rc) * (L.Rs - L.Rc) := by
    have ha := arcsecToRad_pos
    have h1 := hL.Rc; have h2 := hL.Rs; have h3 := hL.d_l; have h4 := hL.d_s; have h5 := hL.d_ls
    have h6 := hL.G
    have hsc : 0 < L.sigmacr := by rw [hL.sigmacr]; positivity
    rw [div_mul_cancel₀ _ (sub_ne_zero.2 hL.ne.symm)]
    simp only [pjKappa0]
    positivity
  generalize 2 * pjKappa0 L.mass L.Rc L.Rs L.d_l L.sigmacr * L.Rc * L.Rs / (L.Rs - L.Rc) = C at *
  have hcond := pj_conditions hL.Rc hL.Rs hC
  have h3 : S.encard ≤ 3 := C112_radial_three H (fun r hr => hd C r hr) hcond.1 hcond.2 hb
  refine ⟨h3, fun hreg => ?_⟩
  have hodd : OddImages L.deflection S := by
    refine C112_radial (K := |C| * 2) H (fun r hr => hd C r hr) ?_ (fun r hr => ?_) hb hreg
    · have hq : ∀ a : ℝ, 0 < a → Continuous fun r : ℝ => r / (a + √(a ^ 2 + r ^ 2)) := fun a ha => by
        refine continuous_id.div (by fun_prop) fun r => ?_
        have := sqrt_nonneg (a ^ 2 + r ^ 2)
        positivity
      have : Continuous (pjRadial C L.Rc L.Rs) := continuous_const.mul ((hq _ hL.Rc).sub (hq _ hL.Rs))
      have h := (this.tendsto 0).mono_left (nhdsWithin_le_nhds (s := Ioi (0 : ℝ)))
      simpa [pjRadial] using h
    · rw [pjRadial, abs_mul]
      refine mul_le_mul_of_nonneg_left ?_ (abs_nonneg C)
      exact (abs_sub _ _).trans (by linarith [pj_shape_le hL.Rc hr, pj_shape_le hL.Rs hr])
  exact ⟨hodd, one_or_three h3 hodd.2.1⟩

/-- A softened isothermal sphere with three images of a source at distance 7/2; two of them are at the
distances 1 and 7/2 on the other side. -/
example : (imagesOf (sisDeflectionOpt 0 0 9 1) (7 / 2) 0).ncard = 3 := by
  have hb : ((7 / 2 : ℝ), (0 : ℝ)) ≠ (0, 0) := by simp
  have hs : √((7 / 2 - 0) ^ 2 + ((0 : ℝ) - 0) ^ 2) = 7 / 2 := by
    rw [show ((7 / 2 - 0) ^ 2 + ((0 : ℝ) - 0) ^ 2) = (7 / 2) ^ 2 by norm_num, sqrt_sq (by norm_num)]
  have H := radialLens_sis (x0 := 0) (y0 := 0) (Rein := 9) (s := 1) one_pos
  have hmem := H.image_iff hb
  rw [hs] at hmem
  obtain ⟨-, h⟩ := C112_sis (x0 := 0) (y0 := 0) (Rein := 9) (s := 1) (by norm_num) one_pos hb
  have hreg : OffCaustic (sisDeflection 0 0 9 1) (imagesOf (sisDeflectionOpt 0 0 9 1) (7 / 2) 0) := by
    intro p hp M hM
    obtain ⟨t, ht, rfl⟩ := (hmem p).1 hp
    have hd := H.det (fun r hr => hasDerivAt_softSis one_pos hr) hb (t := t) (M := M) (by rw [hs]; exact ht) (by rw [hs]; exact hM)
    rw [hd, hs]
    have h0 : t ≠ 0 := by rintro rfl; rw [lineDefl_zero] at ht; norm_num at ht
    have ha : 0 < |t| := abs_pos.2 h0
    refine mul_ne_zero (by positivity) fun hz => ?_
    have h2 : |t| = 2 := by
      have : (|t| + 1) ^ 2 = 9 := by field_simp at hz; linarith
      nlinarith
    rcases lt_or_gt_of_ne h0 with h | h
    · rw [lineDefl_neg h] at ht
      rw [abs_of_neg h] at h2
      rw [h2] at ht
      norm_num at ht
      linarith
    · rw [lineDefl_pos h] at ht
      rw [abs_of_pos h] at h2
      rw [h2] at ht
      norm_num at ht
  have hm : ∀ t : ℝ, t < 0 → t + 9 * -t / (-t + 1) = 7 / 2 →
      (0 + t / (7 / 2) * (7 / 2 - 0), 0 + t / (7 / 2) * (0 - 0)) ∈ imagesOf (sisDeflectionOpt 0 0 9 1) (7 / 2) 0 := by
    intro t h0 h
    refine (hmem _).2 ⟨t, ?_, rfl⟩
    rw [lineDefl_neg h0]
    linarith
  have i1 := hm (-1) (by norm_num) (by norm_num)
  have i2 := hm (-(7 / 2)) (by norm_num) (by norm_num)
  obtain ⟨hodd, h | h⟩ := h hreg
  · exfalso
    obtain ⟨a, ha⟩ := Set.ncard_eq_one.1 h
    rw [ha] at i1 i2
    have := i1.trans i2.symm
    norm_num at this
  · exact h

example := C112_pseudo_jaffe pjEx pjEx_ok rfl (by norm_num [pjEx]) (bx := 1) (bys := 2) (by norm_num [pjEx])

end Caustics

import Verif.Props.QuadLens
import Verif.Props.StarCount
import Verif.Lemmas.PlaneDegree
import Mathlib.Analysis.InnerProductSpace.Calculus

/-!
C143: the parities of the images of a lens plane add up to a number that depends on its singularities only.
-/

namespace Caustics

open ComplexConjugate FieldLens Filter Topology

/-- A member of a `SinglePlane`: a point mass, sheet or shear, a singular isothermal sphere, a lens `L` whose deflection
`a` depends only on the direction from its centre, a lens `L` whose deflection `a` grows without bound towards its centre,
or any other lens `L`, with its deflection `a` in complex numbers and
the positions where that is not smooth. -/
inductive PlaneMember where
  | field (m : FieldLens)
  | sis (x0 y0 Rein : ℝ)
  | cone (L : ThinLensO ℝ) (x0 y0 : ℝ) (a : ℂ → ℂ)
  | spike (L : ThinLensO ℝ) (x0 y0 : ℝ) (a : ℂ → ℂ)
  | other (L : ThinLensO ℝ) (a : ℂ → ℂ) (kinks : Finset (ℝ × ℝ))

/-- Continuous, growing slower than the distance, and continuously differentiable except at the kinks, where nothing is
assumed about the value that `L` returns. -/
structure Tame (L : ThinLensO ℝ) (a : ℂ → ℂ) (kinks : Finset (ℝ × ℝ)) : Prop where
  value : ∀ p : ℝ × ℝ, p ∉ kinks → L.reduced p.1 p.2 = some ((a ⟨p.1, p.2⟩).re, (a ⟨p.1, p.2⟩).im)
  cont : Continuous a
  smooth : ∀ p : ℝ × ℝ, p ∉ kinks → ContDiffAt ℝ 1 a ⟨p.1, p.2⟩
  growth : ∀ ε > 0, ∃ M, ∀ w, ‖a w‖ ≤ ε * ‖w‖ + M

/-- The deflection depends only on the direction from `(x0, y0)`, where there is no value, and is bounded. Among all
values it takes, the one in the direction `u` goes farthest in this direction, so that the values are the boundary of a
convex set: the cut of `L`. -/
structure Conical (L : ThinLensO ℝ) (x0 y0 : ℝ) (a : ℂ → ℂ) : Prop where
  value : ∀ p : ℝ × ℝ, p ≠ (x0, y0) → L.reduced p.1 p.2 =
    some ((a (⟨p.1, p.2⟩ - ⟨x0, y0⟩)).re, (a (⟨p.1, p.2⟩ - ⟨x0, y0⟩)).im)
  centre : L.reduced x0 y0 = none
  smooth : ∀ v ≠ 0, ContDiffAt ℝ 1 a v
  scale : ∀ t : ℝ, 0 < t → ∀ v, a (t * v) = a v
  bounded : ∃ M, ∀ v, ‖a v‖ ≤ M
  support : ∀ u v, u ≠ 0 → v ≠ 0 → (a v * conj u).re ≤ (a u * conj u).re

/-- Towards `(x0, y0)` the deflection away from there grows without bound. Nothing is assumed about the value that `L`
returns at `(x0, y0)` itself. -/
structure Steep (L : ThinLensO ℝ) (x0 y0 : ℝ) (a : ℂ → ℂ) : Prop where
  value : ∀ p : ℝ × ℝ, p ≠ (x0, y0) → L.reduced p.1 p.2 =
    some ((a (⟨p.1, p.2⟩ - ⟨x0, y0⟩)).re, (a (⟨p.1, p.2⟩ - ⟨x0, y0⟩)).im)
  smooth : ∀ v ≠ 0, ContDiffAt ℝ 1 a v
  steep : ∀ C : ℝ, ∀ᶠ v in 𝓝[≠] (0 : ℂ), C * ‖v‖ ≤ (a v * conj v).re
  growth : ∀ ε > 0, ∃ ρ M : ℝ, ∀ v, ρ ≤ ‖v‖ → ‖a v‖ ≤ ε * ‖v‖ + M

namespace PlaneMember

noncomputable def lens (z : ℝ) : PlaneMember → ThinLensO ℝ
  | field m => m.thin z
  | sis x0 y0 R => sisThinO z x0 y0 R
  | cone L _ _ _ => L
  | spike L _ _ _ => L
  | other L _ _ => L

/-- Where it has no value, or, with a spike, where the values around have no limit. -/
def pole : PlaneMember → Option (ℝ × ℝ)
  | field m => m.place
  | sis x0 y0 _ => some (x0, y0)
  | cone _ x0 y0 _ => some (x0, y0)
  | spike _ x0 y0 _ => some (x0, y0)
  | other _ _ _ => none

/-- The centre of a singular member whose deflection stays bounded. -/
def cusp : PlaneMember → Option (ℝ × ℝ)
  | sis x0 y0 _ => some (x0, y0)
  | cone _ x0 y0 _ => some (x0, y0)
  | _ => none

/-- `h` is inside the cut, the region enclosed by the deflections of a singular member. For the singular isothermal
sphere it is the disc with the Einstein radius. -/
def inCut : PlaneMember → ℝ × ℝ → Prop
  | sis _ _ R, h => h.1 ^ 2 + h.2 ^ 2 < R ^ 2
  | cone _ _ _ a, h => ∀ v : ℂ, v ≠ 0 → ((⟨h.1, h.2⟩ : ℂ) * conj v).re < (a v * conj v).re
  | _, _ => False

/-- `h` is on the boundary of the cut: it is one of the deflections. -/
def onCut : PlaneMember → ℝ × ℝ → Prop
  | sis _ _ R, h => h.1 ^ 2 + h.2 ^ 2 = R ^ 2
  | cone _ _ _ a, h => ∃ v : ℂ, v ≠ 0 ∧ a v = ⟨h.1, h.2⟩
  | _, _ => False

/-- Where there is a point mass or a spike. -/
def starAt : PlaneMember → Option (ℝ × ℝ)
  | field m => m.place
  | spike _ x0 y0 _ => some (x0, y0)
  | _ => none

def kinkSet : PlaneMember → Finset (ℝ × ℝ)
  | other _ _ K => K
  | spike _ x0 y0 _ => {(x0, y0)}
  | _ => ∅

def kap : PlaneMember → ℝ
  | field m => m.kappa
  | _ => 0

def gam : PlaneMember → ℝ × ℝ
  | field m => m.gamma
  | _ => 0

def Valid : PlaneMember → Prop
  | field m => m.Ok
  | sis _ _ R => 0 < R
  | cone L x0 y0 a => Conical L x0 y0 a
  | spike L x0 y0 a => Steep L x0 y0 a
  | other L a K => Tame L a K

/-- The deflection as a complex number. -/
noncomputable def cd : PlaneMember → ℂ → ℂ
  | field m, w => m.cdefl w
  | sis x0 y0 R, w => ((R / ‖w - ⟨x0, y0⟩‖ : ℝ) : ℂ) * (w - ⟨x0, y0⟩)
  | cone _ x0 y0 a, w => a (w - ⟨x0, y0⟩)
  | spike _ x0 y0 a, w => a (w - ⟨x0, y0⟩)
  | other _ a _, w => a w

theorem value {m : PlaneMember} (hm : m.Valid) (z : ℝ) (p : ℝ × ℝ) (hk : p ∉ m.kinkSet) (h : m.pole ≠ some p) :
    (m.lens z).reduced p.1 p.2 = some ((m.cd ⟨p.1, p.2⟩).re, (m.cd ⟨p.1, p.2⟩).im) := by
  cases m with
  | field m => exact field_defl z m p h
  | sis x0 y0 R =>
    rw [lens, sis_defl_complex (fun h' => h (by rw [pole, h']))]
    rfl
  | cone L x0 y0 a => exact hm.value p fun h' => h (by rw [pole, h'])
  | spike L x0 y0 a => exact hm.value p fun h' => h (by rw [pole, h'])
  | other L a K => exact hm.value p hk

theorem value_pole {m : PlaneMember} (hv : m.Valid) (z : ℝ) (p : ℝ × ℝ) (hk : p ∉ m.kinkSet) (h : m.pole = some p) :
    (m.lens z).reduced p.1 p.2 = none := by
  cases m with
  | field m => exact field_pole z m p h
  | sis x0 y0 R =>
    simp only [pole, Option.some.injEq] at h
    subst h
    exact sis_pole z x0 y0 R
  | cone L x0 y0 a =>
    simp only [pole, Option.some.injEq] at h
    subst h
    exact hv.centre
  | spike L x0 y0 a =>
    simp only [pole, Option.some.injEq] at h
    simp [kinkSet, h] at hk
  | other L a K => simp [pole] at h

theorem mkC_ne {x0 y0 : ℝ} {p : ℝ × ℝ} (h : (x0, y0) ≠ p) : (⟨p.1, p.2⟩ : ℂ) - ⟨x0, y0⟩ ≠ 0 :=
  sub_ne_zero.2 fun h' => h (mkC_injective (a₁ := (x0, y0)) (a₂ := p) h'.symm)

theorem contDiffAt {m : PlaneMember} (hm : m.Valid) {p : ℝ × ℝ} (hk : p ∉ m.kinkSet) (h : m.pole ≠ some p) :
    ContDiffAt ℝ 1 m.cd ⟨p.1, p.2⟩ := by
  have hconj : ∀ w : ℂ, ContDiffAt ℝ 1 (fun w : ℂ => conj w) w := fun w =>
    (Complex.conjCLE : ℂ →L[ℝ] ℂ).contDiff.contDiffAt
  cases m with
  | field m =>
    cases m with
    | point x0 y0 R =>
      have h1 : (⟨p.1, p.2⟩ : ℂ) - ⟨x0, y0⟩ ≠ 0 := mkC_ne fun h' => h (by rw [← h']; rfl)
      change ContDiffAt ℝ 1 (fun w : ℂ => ((R ^ 2 : ℝ) : ℂ) / (conj w - conj (⟨x0, y0⟩ : ℂ))) _
      simp only [div_eq_mul_inv]
      refine contDiffAt_const.mul (((hconj _).sub contDiffAt_const).inv ?_)
      rw [← map_sub]
      exact (map_ne_zero _).2 h1
    | sheet x0 y0 k =>
      change ContDiffAt ℝ 1 (fun w : ℂ => (k : ℂ) * (w - ⟨x0, y0⟩)) _
      exact contDiffAt_const.mul (contDiffAt_id.sub contDiffAt_const)
    | shear x0 y0 g1 g2 =>
      change ContDiffAt ℝ 1 (fun w : ℂ => (⟨g1, g2⟩ : ℂ) * (conj w - conj (⟨x0, y0⟩ : ℂ))) _
      exact contDiffAt_const.mul ((hconj _).sub contDiffAt_const)
  | sis x0 y0 R =>
    have h1 : (⟨p.1, p.2⟩ : ℂ) - ⟨x0, y0⟩ ≠ 0 := mkC_ne fun h' => h (by rw [← h']; rfl)
    change ContDiffAt ℝ 1 (fun w : ℂ => ((R / ‖w - ⟨x0, y0⟩‖ : ℝ) : ℂ) * (w - ⟨x0, y0⟩)) _
    refine ContDiffAt.mul ?_ (contDiffAt_id.sub contDiffAt_const)
    refine Complex.ofRealCLM.contDiff.contDiffAt.comp (⟨p.1, p.2⟩ : ℂ) ?_
    have h2 : ContDiffAt ℝ 1 (fun w : ℂ => w - ⟨x0, y0⟩) ⟨p.1, p.2⟩ := contDiffAt_id.sub contDiffAt_const
    exact contDiffAt_const.div (h2.norm ℝ h1) (norm_ne_zero_iff.2 h1)
  | cone L x0 y0 a =>
    have h1 : (⟨p.1, p.2⟩ : ℂ) - ⟨x0, y0⟩ ≠ 0 := mkC_ne fun h' => h (by rw [← h']; rfl)
    exact ContDiffAt.comp (g := a) (⟨p.1, p.2⟩ : ℂ) (Conical.smooth hm _ h1) (contDiffAt_id.sub contDiffAt_const)
  | spike L x0 y0 a =>
    have h1 : (⟨p.1, p.2⟩ : ℂ) - ⟨x0, y0⟩ ≠ 0 := mkC_ne fun h' => h (by rw [← h']; rfl)
    exact ContDiffAt.comp (g := a) (⟨p.1, p.2⟩ : ℂ) (Steep.smooth hm _ h1) (contDiffAt_id.sub contDiffAt_const)
  | other L a K => exact hm.smooth p hk

theorem continuousAt {m : PlaneMember} (hm : m.Valid) {p : ℝ × ℝ} (h : m.pole ≠ some p) :
    ContinuousAt m.cd ⟨p.1, p.2⟩ := by
  cases m with
  | field m => exact (contDiffAt hm (by simp [kinkSet]) h).continuousAt
  | sis x0 y0 R => exact (contDiffAt (m := .sis x0 y0 R) hm (by simp [kinkSet]) h).continuousAt
  | cone L x0 y0 a => exact (contDiffAt (m := .cone L x0 y0 a) hm (by simp [kinkSet]) h).continuousAt
  | spike L x0 y0 a =>
    refine (contDiffAt (m := .spike L x0 y0 a) hm ?_ h).continuousAt
    rw [kinkSet, Finset.mem_singleton]
    exact fun h' => h (by rw [pole, h'])
  | other L a K => exact hm.cont.continuousAt

/-- Far away only sheets and shears count. -/
theorem far {m : PlaneMember} (hm : m.Valid) {ε : ℝ} (hε : 0 < ε) :
    ∃ ρ M : ℝ, ∀ w : ℂ, ρ ≤ ‖w‖ → ‖m.cd w - ((m.kap : ℂ) * w + (⟨m.gam.1, m.gam.2⟩ : ℂ) * conj w)‖ ≤ ε * ‖w‖ + M := by
  have h0 : (⟨0, 0⟩ : ℂ) = 0 := rfl
  cases m with
  | field m =>
    cases m with
    | point x0 y0 R =>
      refine ⟨‖(⟨x0, y0⟩ : ℂ)‖ + 1, R ^ 2, fun w hw => ?_⟩
      simp only [cd, cdefl, kap, gam, kappa, gamma, Prod.fst_zero, Prod.snd_zero, h0, Complex.ofReal_zero, zero_mul,
        add_zero, sub_zero]
      have h1 : 1 ≤ ‖w - ⟨x0, y0⟩‖ := by
        have := norm_sub_norm_le w (⟨x0, y0⟩ : ℂ)
        linarith
      rw [← map_sub, norm_div, Complex.norm_conj, Complex.norm_real, Real.norm_eq_abs, abs_of_nonneg (sq_nonneg R)]
      have h2 : R ^ 2 / ‖w - ⟨x0, y0⟩‖ ≤ R ^ 2 := div_le_self (sq_nonneg R) h1
      have := mul_nonneg hε.le (norm_nonneg w)
      linarith
    | sheet x0 y0 k =>
      refine ⟨0, ‖(k : ℂ) * ⟨x0, y0⟩‖, fun w _ => ?_⟩
      simp only [cd, cdefl, kap, gam, kappa, gamma, Prod.fst_zero, Prod.snd_zero, h0, zero_mul, add_zero]
      rw [show (k : ℂ) * (w - ⟨x0, y0⟩) - k * w = -(k * ⟨x0, y0⟩) by ring, norm_neg]
      have := mul_nonneg hε.le (norm_nonneg w)
      linarith
    | shear x0 y0 g1 g2 =>
      refine ⟨0, ‖(⟨g1, g2⟩ : ℂ) * conj (⟨x0, y0⟩ : ℂ)‖, fun w _ => ?_⟩
      simp only [cd, cdefl, kap, gam, kappa, gamma, Complex.ofReal_zero, zero_mul, zero_add]
      rw [show (⟨g1, g2⟩ : ℂ) * (conj w - conj (⟨x0, y0⟩ : ℂ)) - ⟨g1, g2⟩ * conj w = -(⟨g1, g2⟩ * conj (⟨x0, y0⟩ : ℂ)) by
        ring, norm_neg]
      have := mul_nonneg hε.le (norm_nonneg w)
      linarith
  | sis x0 y0 R =>
    refine ⟨0, R, fun w _ => ?_⟩
    simp only [cd, kap, gam, Prod.fst_zero, Prod.snd_zero, h0, Complex.ofReal_zero, zero_mul, add_zero, sub_zero]
    rw [norm_mul, Complex.norm_real, Real.norm_eq_abs]
    have hR : 0 < R := hm
    rw [abs_of_nonneg (by positivity)]
    have : R / ‖w - ⟨x0, y0⟩‖ * ‖w - ⟨x0, y0⟩‖ ≤ R := by
      rcases eq_or_ne (‖w - ⟨x0, y0⟩‖) 0 with h | h
      · rw [h, mul_zero]
        exact hR.le
      · rw [div_mul_cancel₀ _ h]
    have := mul_nonneg hε.le (norm_nonneg w)
    linarith
  | cone L x0 y0 a =>
    obtain ⟨M, hM⟩ := Conical.bounded hm
    refine ⟨0, M, fun w _ => ?_⟩
    simp only [cd, kap, gam, Prod.fst_zero, Prod.snd_zero, h0, Complex.ofReal_zero, zero_mul, add_zero, sub_zero]
    have := mul_nonneg hε.le (norm_nonneg w)
    linarith [hM (w - ⟨x0, y0⟩)]
  | spike L x0 y0 a =>
    obtain ⟨ρ, M, hM⟩ := Steep.growth hm ε hε
    refine ⟨ρ + ‖(⟨x0, y0⟩ : ℂ)‖, ε * ‖(⟨x0, y0⟩ : ℂ)‖ + M, fun w hw => ?_⟩
    simp only [cd, kap, gam, Prod.fst_zero, Prod.snd_zero, h0, Complex.ofReal_zero, zero_mul, add_zero, sub_zero]
    have h1 := norm_sub_norm_le w (⟨x0, y0⟩ : ℂ)
    have h2 := mul_le_mul_of_nonneg_left (norm_sub_le w (⟨x0, y0⟩ : ℂ)) hε.le
    linarith [hM (w - ⟨x0, y0⟩) (by linarith)]
  | other L a K =>
    obtain ⟨M, hM⟩ := hm.growth ε hε
    refine ⟨0, M, fun w _ => ?_⟩
    simp only [cd, kap, gam, Prod.fst_zero, Prod.snd_zero, h0, Complex.ofReal_zero, zero_mul, add_zero, sub_zero]
    exact hM w

theorem steep_at {L : ThinLensO ℝ} {x0 y0 : ℝ} {a : ℂ → ℂ} (ha : Steep L x0 y0 a) (C : ℝ) :
    ∀ᶠ w in 𝓝[≠] (⟨x0, y0⟩ : ℂ), C * ‖w - ⟨x0, y0⟩‖ ≤ (a (w - ⟨x0, y0⟩) * conj (w - ⟨x0, y0⟩)).re := by
  have hlim : Tendsto (fun w : ℂ => w - ⟨x0, y0⟩) (𝓝[≠] (⟨x0, y0⟩ : ℂ)) (𝓝[≠] 0) := by
    refine tendsto_nhdsWithin_iff.2 ⟨?_, ?_⟩
    · have : ContinuousAt (fun w : ℂ => w - ⟨x0, y0⟩) ⟨x0, y0⟩ := by fun_prop
      have h := this.tendsto
      rw [sub_self] at h
      exact h.mono_left nhdsWithin_le_nhds
    · filter_upwards [self_mem_nhdsWithin] with w hw
      exact sub_ne_zero.2 hw
  exact hlim.eventually (ha.steep C)

/-- No member deflects without bound towards a place, -/
theorem radial_below {m : PlaneMember} (hm : m.Valid) (p : ℝ × ℝ) : ∃ C : ℝ,
    ∀ᶠ w in 𝓝[≠] (⟨p.1, p.2⟩ : ℂ), C * ‖w - ⟨p.1, p.2⟩‖ ≤ (m.cd w * conj (w - ⟨p.1, p.2⟩)).re := by
  have hbd : ∀ M : ℝ, (∀ᶠ w in 𝓝[≠] (⟨p.1, p.2⟩ : ℂ), ‖m.cd w‖ ≤ M) → ∃ C : ℝ,
      ∀ᶠ w in 𝓝[≠] (⟨p.1, p.2⟩ : ℂ), C * ‖w - ⟨p.1, p.2⟩‖ ≤ (m.cd w * conj (w - ⟨p.1, p.2⟩)).re := fun M hM => by
    refine ⟨-M, hM.mono fun w hw => ?_⟩
    have h1 := neg_le_of_abs_le (Complex.abs_re_le_norm (m.cd w * conj (w - ⟨p.1, p.2⟩)))
    rw [norm_mul, Complex.norm_conj] at h1
    have h2 := mul_le_mul_of_nonneg_right hw (norm_nonneg (w - ⟨p.1, p.2⟩))
    linarith
  by_cases h : m.pole = some p
  · cases m with
    | field m =>
      cases m with
      | point x0 y0 R =>
        simp only [pole, place, Option.some.injEq] at h
        subst h
        refine ⟨0, ?_⟩
        filter_upwards [self_mem_nhdsWithin] with w hw
        simp only [cd, cdefl]
        rw [← map_sub, div_mul_cancel₀ _ ((map_ne_zero _).2 (sub_ne_zero.2 hw)), Complex.ofReal_re, zero_mul]
        positivity
      | sheet => simp [pole, place] at h
      | shear => simp [pole, place] at h
    | sis x0 y0 R =>
      have hR : 0 < R := hm
      refine hbd R (Eventually.of_forall fun w => ?_)
      simp only [cd, norm_mul, Complex.norm_real, Real.norm_eq_abs]
      rw [abs_of_nonneg (by positivity)]
      rcases eq_or_ne (‖w - ⟨x0, y0⟩‖) 0 with h | h
      · rw [h, mul_zero]
        exact hR.le
      · rw [div_mul_cancel₀ _ h]
    | cone L x0 y0 a =>
      obtain ⟨M, hM⟩ := Conical.bounded hm
      exact hbd M (Eventually.of_forall fun w => hM _)
    | spike L x0 y0 a =>
      simp only [pole, Option.some.injEq] at h
      subst h
      exact ⟨0, steep_at hm 0⟩
    | other L a K => simp [pole] at h
  · refine hbd (‖m.cd ⟨p.1, p.2⟩‖ + 1) ?_
    refine (((continuousAt hm h).norm.eventually (gt_mem_nhds (lt_add_one _))).filter_mono nhdsWithin_le_nhds).mono ?_
    exact fun w hw => hw.le

/-- but a point mass or a spike deflects away from its place without bound. -/
theorem radial_star {m : PlaneMember} (hm : m.Valid) {p : ℝ × ℝ} (hs : m.starAt = some p) (C : ℝ) :
    ∀ᶠ w in 𝓝[≠] (⟨p.1, p.2⟩ : ℂ), C * ‖w - ⟨p.1, p.2⟩‖ ≤ (m.cd w * conj (w - ⟨p.1, p.2⟩)).re := by
  cases m with
  | field m =>
    cases m with
    | point x0 y0 R =>
      simp only [starAt, place, Option.some.injEq] at hs
      subst hs
      have hR : R ≠ 0 := hm
      have hlim : Tendsto (fun w : ℂ => C * ‖w - ⟨x0, y0⟩‖) (𝓝[≠] (⟨x0, y0⟩ : ℂ)) (𝓝 0) := by
        have : ContinuousAt (fun w : ℂ => C * ‖w - ⟨x0, y0⟩‖) ⟨x0, y0⟩ := by fun_prop
        have h := this.tendsto
        rw [sub_self, norm_zero, mul_zero] at h
        exact h.mono_left nhdsWithin_le_nhds
      filter_upwards [self_mem_nhdsWithin, hlim.eventually (gt_mem_nhds (show 0 < R ^ 2 by positivity))] with w hw h1
      simp only [cd, cdefl]
      rw [← map_sub, div_mul_cancel₀ _ ((map_ne_zero _).2 (sub_ne_zero.2 hw)), Complex.ofReal_re]
      exact h1.le
    | sheet => simp [starAt, place] at hs
    | shear => simp [starAt, place] at hs
  | sis => simp [starAt] at hs
  | cone => simp [starAt] at hs
  | spike L x0 y0 a =>
    simp only [starAt, Option.some.injEq] at hs
    subst hs
    exact steep_at hm C
  | other => simp [starAt] at hs

end PlaneMember

open PlaneMember

/-! ### The whole plane -/

/-- The positions that `raytrace` of a `SinglePlane` maps to `b`. -/
def planeImages (z : ℝ) (l : List PlaneMember) (b : ℝ × ℝ) : Set (ℝ × ℝ) :=
  {p | raytraceOpt (singlePlaneO z (l.map (lens z))).reduced p.1 p.2 = some b}

/-- `J` is the Jacobian of `raytrace` at `p`. -/
def PlaneJacobian (z : ℝ) (l : List PlaneMember) (p : ℝ × ℝ) (J : M22 ℝ) : Prop :=
  ∃ f : ℝ → ℝ → ℝ × ℝ,
    (∀ᶠ q in 𝓝 p, raytraceOpt (singlePlaneO z (l.map (lens z))).reduced q.1 q.2 = some (f q.1 q.2)) ∧
    HasJac f J.a00 J.a01 J.a10 J.a11 p.1 p.2

/-- The places of the point masses and spikes. -/
noncomputable def planeStars (l : List PlaneMember) : Finset (ℝ × ℝ) := by
  classical exact (l.filterMap starAt).toFinset

/-- Where some member has no value. -/
noncomputable def planePoles (l : List PlaneMember) : Finset (ℝ × ℝ) := by
  classical exact (l.filterMap pole).toFinset

/-- Where some member is not smooth. -/
noncomputable def planeKinks (l : List PlaneMember) : Finset (ℝ × ℝ) := by
  classical exact (l.map kinkSet).foldr (· ∪ ·) ∅

theorem mem_planeStars {l : List PlaneMember} {p : ℝ × ℝ} : p ∈ planeStars l ↔ ∃ m ∈ l, m.starAt = some p := by
  simp [planeStars]

theorem mem_planePoles {l : List PlaneMember} {p : ℝ × ℝ} : p ∈ planePoles l ↔ ∃ m ∈ l, m.pole = some p := by
  simp [planePoles]

theorem mem_planeKinks {l : List PlaneMember} {p : ℝ × ℝ} : p ∈ planeKinks l ↔ ∃ m ∈ l, p ∈ m.kinkSet := by
  classical
  rw [planeKinks]
  induction l with
  | nil => simp
  | cons m l ih => simp [ih]

theorem star_pole {m : PlaneMember} {p : ℝ × ℝ} (h : m.starAt = some p) : m.pole = some p := by
  cases m with
  | field m => exact h
  | sis => simp [starAt] at h
  | cone => simp [starAt] at h
  | spike => exact h
  | other => simp [starAt] at h

theorem plane_sum (z : ℝ) (l : List PlaneMember) (hl : ∀ m ∈ l, m.Valid) (p : ℝ × ℝ) (hk : p ∉ planeKinks l) (a : ℝ × ℝ)
    {b : ℝ × ℝ} :
    (l.map (lens z)).foldlM (fun a l => do
        let c ← l.reduced p.1 p.2
        return (a.1 + c.1, a.2 + c.2)) a = some b ↔
      p ∉ planePoles l ∧ (⟨b.1, b.2⟩ : ℂ) = ⟨a.1, a.2⟩ + (l.map fun m => m.cd ⟨p.1, p.2⟩).sum := by
  rw [mem_planePoles]
  rw [mem_planeKinks] at hk
  push Not at hk ⊢
  induction l generalizing a with
  | nil =>
    simp only [List.map_nil, List.foldlM_nil, Option.pure_def, Option.some.injEq, List.not_mem_nil, false_implies,
      implies_true, List.sum_nil, add_zero, true_and, Complex.mk.injEq]
    exact ⟨fun h => ⟨congrArg Prod.fst h.symm, congrArg Prod.snd h.symm⟩, fun h => (Prod.ext h.1 h.2).symm⟩
  | cons m l ih =>
    have ih := fun a => ih (fun m hm => hl m (List.mem_cons_of_mem _ hm)) a (fun m hm => hk m (List.mem_cons_of_mem _ hm))
    rw [List.map_cons, List.foldlM_cons]
    by_cases hm : m.pole = some p
    · rw [value_pole (hl m (by simp)) z p (hk m (by simp)) hm]
      simp [hm]
    · rw [value (hl m (by simp)) z p (hk m (by simp)) hm]
      simp only [Option.bind_eq_bind, Option.bind_some, Option.pure_def] at ih ⊢
      rw [ih, List.forall_mem_cons, List.map_cons, List.sum_cons]
      simp only [ne_eq, hm, not_false_eq_true, true_and]
      refine and_congr_right fun _ => ?_
      rw [← add_assoc]
      have e : (⟨a.1 + (m.cd ⟨p.1, p.2⟩).re, a.2 + (m.cd ⟨p.1, p.2⟩).im⟩ : ℂ) =
          ⟨a.1, a.2⟩ + m.cd ⟨p.1, p.2⟩ := Complex.ext rfl rfl
      rw [e]

/-- The lens equation. -/
noncomputable def planeMap (l : List PlaneMember) (b : ℝ × ℝ) (w : ℂ) : ℂ :=
  w - (l.map fun m => m.cd w).sum - ⟨b.1, b.2⟩

theorem plane_value (z : ℝ) (l : List PlaneMember) (hl : ∀ m ∈ l, m.Valid) (p : ℝ × ℝ) (hk : p ∉ planeKinks l)
    (b : ℝ × ℝ) : raytraceOpt (singlePlaneO z (l.map (lens z))).reduced p.1 p.2 = some b ↔
      p ∉ planePoles l ∧ planeMap l b ⟨p.1, p.2⟩ = 0 := by
  have h := fun c => plane_sum (b := c) z l hl p hk (0, 0)
  rw [show (⟨((0, 0) : ℝ × ℝ).1, ((0, 0) : ℝ × ℝ).2⟩ : ℂ) = 0 from rfl] at h
  simp only [raytraceOpt, singlePlaneO, Option.bind_eq_bind, Option.pure_def, Option.bind_eq_some_iff,
    Option.some.injEq] at h ⊢
  rw [planeMap, sub_eq_zero]
  constructor
  · rintro ⟨c, hc, he⟩
    obtain ⟨h1, h2⟩ := (h c).1 hc
    refine ⟨h1, ?_⟩
    rw [zero_add] at h2
    rw [← h2, ← he]
    exact Complex.ext rfl rfl
  · rintro ⟨h1, h2⟩
    set w := (l.map fun m => m.cd ⟨p.1, p.2⟩).sum with hw
    refine ⟨(w.re, w.im), (h _).2 ⟨h1, by rw [zero_add]⟩, ?_⟩
    have h3 := congrArg Complex.re h2
    have h4 := congrArg Complex.im h2
    exact Prod.ext h3 h4

section
variable {l : List PlaneMember} {b : ℝ × ℝ}

theorem planeMap_cd (w : ℂ) : planeMap l b w = w - (l.map fun m => m.cd w).sum - ⟨b.1, b.2⟩ := rfl

theorem list_contDiffAt (hl : ∀ m ∈ l, m.Valid) {p : ℝ × ℝ} (h1 : p ∉ planeKinks l) (h2 : p ∉ planePoles l) :
    ContDiffAt ℝ 1 (planeMap l b) ⟨p.1, p.2⟩ := by
  rw [mem_planeKinks] at h1
  rw [mem_planePoles] at h2
  push Not at h1 h2
  have : ContDiffAt ℝ 1 (fun w => (l.map fun m => m.cd w).sum) (⟨p.1, p.2⟩ : ℂ) := by
    induction l with
    | nil => exact contDiffAt_const
    | cons m l ih =>
      simp only [List.map_cons, List.sum_cons]
      exact (PlaneMember.contDiffAt (hl m (by simp)) (h1 m (by simp)) (h2 m (by simp))).add
        (ih (fun m hm => hl m (List.mem_cons_of_mem _ hm)) (fun m hm => h1 m (List.mem_cons_of_mem _ hm))
          fun m hm => h2 m (List.mem_cons_of_mem _ hm))
  exact (contDiffAt_id.sub this).sub contDiffAt_const

theorem list_continuousAt (hl : ∀ m ∈ l, m.Valid) {p : ℝ × ℝ} (h2 : p ∉ planePoles l) :
    ContinuousAt (planeMap l b) ⟨p.1, p.2⟩ := by
  rw [mem_planePoles] at h2
  push Not at h2
  have : ContinuousAt (fun w => (l.map fun m => m.cd w).sum) (⟨p.1, p.2⟩ : ℂ) := by
    induction l with
    | nil => exact continuousAt_const
    | cons m l ih =>
      simp only [List.map_cons, List.sum_cons]
      exact (PlaneMember.continuousAt (hl m (by simp)) (h2 m (by simp))).add
        (ih (fun m hm => hl m (List.mem_cons_of_mem _ hm)) fun m hm => h2 m (List.mem_cons_of_mem _ hm))
  exact (continuousAt_id.sub this).sub continuousAt_const

theorem list_far (hl : ∀ m ∈ l, m.Valid) {ε : ℝ} (hε : 0 < ε) :
    ∃ ρ M : ℝ, ∀ w : ℂ, ρ ≤ ‖w‖ → ‖(l.map fun m => m.cd w).sum - (((l.map kap).sum : ℂ) * w +
      (⟨(l.map gam).sum.1, (l.map gam).sum.2⟩ : ℂ) * conj w)‖ ≤ ε * ‖w‖ + M := by
  induction l generalizing ε with
  | nil =>
    refine ⟨0, 0, fun w _ => ?_⟩
    have h0 : (⟨0, 0⟩ : ℂ) = 0 := rfl
    simp only [List.map_nil, List.sum_nil, Prod.fst_zero, Prod.snd_zero, h0, Complex.ofReal_zero, zero_mul, add_zero,
      sub_zero, norm_zero]
    positivity
  | cons m l ih =>
    obtain ⟨ρ1, M1, h1⟩ := PlaneMember.far (hl m (by simp)) (half_pos hε)
    obtain ⟨ρ2, M2, h2⟩ := ih (fun m hm => hl m (List.mem_cons_of_mem _ hm)) (half_pos hε)
    refine ⟨max ρ1 ρ2, M1 + M2, fun w hw => ?_⟩
    have k1 := h1 w ((le_max_left _ _).trans hw)
    have k2 := h2 w ((le_max_right _ _).trans hw)
    have e5 : (⟨(m.gam + (l.map gam).sum).1, (m.gam + (l.map gam).sum).2⟩ : ℂ) =
        ⟨m.gam.1, m.gam.2⟩ + ⟨(l.map gam).sum.1, (l.map gam).sum.2⟩ := Complex.ext rfl rfl
    simp only [List.map_cons, List.sum_cons, e5, Complex.ofReal_add]
    rw [show m.cd w + (l.map fun m => m.cd w).sum - (((m.kap : ℂ) + ((l.map kap).sum : ℝ)) * w +
        (⟨m.gam.1, m.gam.2⟩ + ⟨(l.map gam).sum.1, (l.map gam).sum.2⟩) * conj w) =
        (m.cd w - ((m.kap : ℂ) * w + (⟨m.gam.1, m.gam.2⟩ : ℂ) * conj w)) +
        ((l.map fun m => m.cd w).sum - (((l.map kap).sum : ℂ) * w +
          (⟨(l.map gam).sum.1, (l.map gam).sum.2⟩ : ℂ) * conj w)) by ring]
    refine (norm_add_le _ _).trans ?_
    linarith

theorem list_below (hl : ∀ m ∈ l, m.Valid) (p : ℝ × ℝ) : ∃ C : ℝ, ∀ᶠ w in 𝓝[≠] (⟨p.1, p.2⟩ : ℂ),
    C * ‖w - ⟨p.1, p.2⟩‖ ≤ ((l.map fun m => m.cd w).sum * conj (w - ⟨p.1, p.2⟩)).re := by
  induction l with
  | nil => exact ⟨0, Eventually.of_forall fun w => by simp⟩
  | cons m l ih =>
    obtain ⟨C1, h1⟩ := radial_below (hl m (by simp)) p
    obtain ⟨C2, h2⟩ := ih fun m hm => hl m (List.mem_cons_of_mem _ hm)
    refine ⟨C1 + C2, ?_⟩
    filter_upwards [h1, h2] with w k1 k2
    rw [List.map_cons, List.sum_cons, add_mul (m.cd w), Complex.add_re]
    linarith

theorem list_star (hl : ∀ m ∈ l, m.Valid) {p : ℝ × ℝ} (hp : p ∈ planeStars l) (C : ℝ) : ∀ᶠ w in 𝓝[≠] (⟨p.1, p.2⟩ : ℂ),
    C * ‖w - ⟨p.1, p.2⟩‖ ≤ ((l.map fun m => m.cd w).sum * conj (w - ⟨p.1, p.2⟩)).re := by
  obtain ⟨m, hm, hs⟩ := mem_planeStars.1 hp
  obtain ⟨pre, post, rfl⟩ := List.append_of_mem hm
  have hr : ∀ m' ∈ pre ++ post, m'.Valid := fun m' hm' => hl m' (by
    rw [List.mem_append] at hm' ⊢
    rw [List.mem_cons]
    tauto)
  obtain ⟨C', h1⟩ := list_below hr p
  filter_upwards [h1, radial_star (hl m hm) hs (C - C')] with w k1 k2
  have e : ((pre ++ m :: post).map fun m => m.cd w).sum = m.cd w + ((pre ++ post).map fun m => m.cd w).sum := by
    simp only [List.map_append, List.map_cons, List.sum_append, List.sum_cons]
    ring
  rw [e, add_mul (m.cd w), Complex.add_re]
  linarith

/-- The special points in complex numbers. -/
noncomputable def specials (l : List PlaneMember) : Finset ℂ :=
  (planePoles l ∪ planeKinks l).map ⟨fun c : ℝ × ℝ => (⟨c.1, c.2⟩ : ℂ), mkC_injective⟩

theorem mem_specials {w : ℂ} : w ∈ specials l ↔ (w.re, w.im) ∈ planePoles l ∨ (w.re, w.im) ∈ planeKinks l := by
  rw [specials, Finset.mem_map, ← Finset.mem_union]
  constructor
  · rintro ⟨c, hc, rfl⟩
    exact hc
  · intro h
    exact ⟨_, h, rfl⟩

theorem special_contDiffAt (hl : ∀ m ∈ l, m.Valid) {w : ℂ} (hw : w ∉ specials l) : ContDiffAt ℝ 1 (planeMap l b) w := by
  rw [mem_specials, not_or] at hw
  exact list_contDiffAt hl hw.2 hw.1

theorem near_special (hl : ∀ m ∈ l, m.Valid) (p : ℂ) : ∀ᶠ w in 𝓝[≠] p, ContDiffAt ℝ 1 (planeMap l b) w := by
  have hev : ∀ᶠ w in 𝓝 p, w ∉ (specials l).erase p :=
    (Finset.finite_toSet ((specials l).erase p)).isClosed.isOpen_compl.mem_nhds (by simp)
  filter_upwards [hev.filter_mono nhdsWithin_le_nhds, self_mem_nhdsWithin] with w hw hne
  exact special_contDiffAt hl fun h => hw (Finset.mem_erase.2 ⟨hne, h⟩)

theorem div_slit {f g : ℂ} (hg : g ≠ 0) (hf : 0 < (f * conj g).re) : f / g ∈ Complex.slitPlane := by
  refine Or.inl ?_
  have e : f / g = (((Complex.normSq g)⁻¹ : ℝ) : ℂ) * (f * conj g) := by
    rw [Complex.ofReal_inv, ← Complex.mul_conj]
    have : conj g ≠ 0 := (map_ne_zero _).2 hg
    field_simp
  rw [e, Complex.re_ofReal_mul]
  exact mul_pos (inv_pos.2 (Complex.normSq_pos.2 hg)) hf

/-- A point mass or a spike counts one. -/
theorem index_star (hl : ∀ m ∈ l, m.Valid) {p : ℝ × ℝ} (hp : p ∈ planeStars l) :
    (∀ᶠ w in 𝓝[≠] (⟨p.1, p.2⟩ : ℂ), planeMap l b w ≠ 0) ∧ HasIndex (planeMap l b) ⟨p.1, p.2⟩ 1 := by
  have hb : ∀ᶠ w in 𝓝[≠] (⟨p.1, p.2⟩ : ℂ), ‖w - ⟨b.1, b.2⟩‖ < ‖(⟨p.1, p.2⟩ : ℂ) - ⟨b.1, b.2⟩‖ + 1 := by
    have : ContinuousAt (fun w : ℂ => ‖w - ⟨b.1, b.2⟩‖) ⟨p.1, p.2⟩ := by fun_prop
    exact (this.eventually (gt_mem_nhds (lt_add_one _))).filter_mono nhdsWithin_le_nhds
  have key : ∀ᶠ w in 𝓝[≠] (⟨p.1, p.2⟩ : ℂ), Good (planeMap l b) w ∧
      planeMap l b w / (-1 * (w - ⟨p.1, p.2⟩)) ∈ Complex.slitPlane := by
    filter_upwards [list_star hl hp (‖(⟨p.1, p.2⟩ : ℂ) - ⟨b.1, b.2⟩‖ + 1), hb, near_special hl ⟨p.1, p.2⟩,
      self_mem_nhdsWithin] with w h1 h2 h3 h4
    have hw : w - ⟨p.1, p.2⟩ ≠ 0 := sub_ne_zero.2 h4
    have hn : 0 < ‖w - ⟨p.1, p.2⟩‖ := norm_pos_iff.2 hw
    have h5 : 0 < (planeMap l b w * conj (-1 * (w - ⟨p.1, p.2⟩))).re := by
      set v := w - ⟨p.1, p.2⟩
      have e : planeMap l b w * conj (-1 * v) = (l.map fun m => m.cd w).sum * conj v - (w - ⟨b.1, b.2⟩) * conj v := by
        rw [planeMap, map_mul, map_neg, map_one]
        ring
      have h6 : ((w - ⟨b.1, b.2⟩) * conj v).re < (‖(⟨p.1, p.2⟩ : ℂ) - ⟨b.1, b.2⟩‖ + 1) * ‖v‖ := by
        refine (Complex.re_le_norm _).trans_lt ?_
        rw [norm_mul, Complex.norm_conj]
        exact mul_lt_mul_of_pos_right h2 hn
      rw [e, Complex.sub_re]
      linarith
    refine ⟨⟨h3, fun h0 => ?_⟩, div_slit (mul_ne_zero (by norm_num) hw) h5⟩
    rw [h0, zero_mul] at h5
    exact lt_irrefl _ h5
  exact ⟨key.mono fun w h => h.1.2, hasIndex_one (by norm_num) key⟩

/-- A kink counts nothing. -/
theorem index_kink (hl : ∀ m ∈ l, m.Valid) {p : ℝ × ℝ} (hp : p ∉ planePoles l) (h0 : planeMap l b ⟨p.1, p.2⟩ ≠ 0) :
    (∀ᶠ w in 𝓝[≠] (⟨p.1, p.2⟩ : ℂ), planeMap l b w ≠ 0) ∧ HasIndex (planeMap l b) ⟨p.1, p.2⟩ 0 := by
  have hc := list_continuousAt (b := b) hl hp
  have hne : ∀ᶠ w in 𝓝[≠] (⟨p.1, p.2⟩ : ℂ), planeMap l b w ≠ 0 :=
    (hc.eventually_ne h0).filter_mono nhdsWithin_le_nhds
  refine ⟨hne, hasIndex_zero hc h0 ?_⟩
  filter_upwards [hne, near_special hl _] with w h1 h2
  exact ⟨h2, h1⟩

/-- A singular isothermal sphere counts one where its cut covers the source. -/
theorem index_sis {pre post : List PlaneMember} {x0 y0 R : ℝ} (hl : ∀ m ∈ pre ++ .sis x0 y0 R :: post, m.Valid)
    (hp : (x0, y0) ∉ planePoles (pre ++ post)) (hR : ‖planeMap (pre ++ post) b ⟨x0, y0⟩‖ ≠ R) :
    (∀ᶠ w in 𝓝[≠] (⟨x0, y0⟩ : ℂ), planeMap (pre ++ .sis x0 y0 R :: post) b w ≠ 0) ∧
      HasIndex (planeMap (pre ++ .sis x0 y0 R :: post) b) ⟨x0, y0⟩
        (if ‖planeMap (pre ++ post) b ⟨x0, y0⟩‖ < R then 1 else 0) := by
  have hl' : ∀ m ∈ pre ++ post, m.Valid := fun m hm => hl m (by
    rw [List.mem_append] at hm ⊢
    rw [List.mem_cons]
    tauto)
  have hR0 : 0 < R := hl (.sis x0 y0 R) (by simp)
  have hc := list_continuousAt (b := b) hl' hp
  simp only at hc
  set h := planeMap (pre ++ post) b with hh
  have hsplit : ∀ w, planeMap (pre ++ .sis x0 y0 R :: post) b w = h w - ((R / ‖w - ⟨x0, y0⟩‖ : ℝ) : ℂ) * (w - ⟨x0, y0⟩) := by
    intro w
    rw [hh, planeMap, planeMap]
    simp only [List.map_append, List.map_cons, List.sum_append, List.sum_cons, cd]
    ring
  have hnear := near_special (b := b) hl (⟨x0, y0⟩ : ℂ)
  have hnorm : ∀ w : ℂ, w ≠ ⟨x0, y0⟩ → ‖((R / ‖w - ⟨x0, y0⟩‖ : ℝ) : ℂ) * (w - ⟨x0, y0⟩)‖ = R := by
    intro w hw
    have : ‖w - ⟨x0, y0⟩‖ ≠ 0 := norm_ne_zero_iff.2 (sub_ne_zero.2 hw)
    rw [norm_mul, Complex.norm_real, Real.norm_eq_abs, abs_of_nonneg (by positivity), div_mul_cancel₀ _ this]
  rcases lt_or_gt_of_ne hR with hlt | hlt
  · have hev : ∀ᶠ w in 𝓝[≠] (⟨x0, y0⟩ : ℂ), ‖h w‖ < R :=
      (hc.norm.eventually (gt_mem_nhds hlt)).filter_mono nhdsWithin_le_nhds
    have hkey : ∀ᶠ w in 𝓝[≠] (⟨x0, y0⟩ : ℂ), Good (planeMap (pre ++ .sis x0 y0 R :: post) b) w ∧
        planeMap (pre ++ .sis x0 y0 R :: post) b w / (-1 * (w - ⟨x0, y0⟩)) ∈ Complex.slitPlane := by
      filter_upwards [hev, hnear, self_mem_nhdsWithin] with w h1 h2 h3
      have h4 := hnorm w h3
      have hw : w - ⟨x0, y0⟩ ≠ 0 := sub_ne_zero.2 h3
      have hwn : 0 < ‖w - ⟨x0, y0⟩‖ := norm_pos_iff.2 hw
      set v := ((R / ‖w - ⟨x0, y0⟩‖ : ℝ) : ℂ) * (w - ⟨x0, y0⟩) with hv
      have hv0 : -v ≠ 0 := by
        rw [neg_ne_zero, ← norm_pos_iff, h4]
        exact hR0
      have h5 : ‖planeMap (pre ++ .sis x0 y0 R :: post) b w - -v‖ < ‖-v‖ := by
        rw [hsplit, norm_neg, h4, ← hv, sub_neg_eq_add, sub_add_cancel]
        exact h1
      have h6 := near_slit hv0 h5
      refine ⟨⟨h2, fun h0 => ?_⟩, ?_⟩
      · rw [h0, zero_div] at h6
        exact Complex.slitPlane_ne_zero h6 rfl
      · have e : planeMap (pre ++ .sis x0 y0 R :: post) b w / (-1 * (w - ⟨x0, y0⟩)) =
            ((R / ‖w - ⟨x0, y0⟩‖ : ℝ) : ℂ) * (planeMap (pre ++ .sis x0 y0 R :: post) b w / -v) := by
          have hr : ((R / ‖w - ⟨x0, y0⟩‖ : ℝ) : ℂ) ≠ 0 := Complex.ofReal_ne_zero.2 (by positivity)
          rw [hv]
          generalize ((R / ‖w - ⟨x0, y0⟩‖ : ℝ) : ℂ) = r at hr
          field_simp
        have h7 : 0 < (planeMap (pre ++ .sis x0 y0 R :: post) b w / -v).re := by
          have : ‖planeMap (pre ++ .sis x0 y0 R :: post) b w / -v - 1‖ < 1 := by
            rw [div_sub_one hv0, norm_div, div_lt_one (norm_pos_iff.2 hv0)]
            exact h5
          have := abs_lt.1 ((Complex.abs_re_le_norm _).trans_lt this)
          rw [Complex.sub_re, Complex.one_re] at this
          linarith [this.1]
        rw [e]
        refine Or.inl ?_
        rw [Complex.re_ofReal_mul]
        positivity
    refine ⟨hkey.mono fun w hw => hw.1.2, ?_⟩
    rw [if_pos hlt]
    exact hasIndex_one (by norm_num) hkey
  · have hev : ∀ᶠ w in 𝓝[≠] (⟨x0, y0⟩ : ℂ), ‖h w - h ⟨x0, y0⟩‖ < ‖h ⟨x0, y0⟩‖ - R := by
      refine (Metric.continuousAt_iff'.1 hc _ (sub_pos.2 hlt)).filter_mono nhdsWithin_le_nhds |>.mono fun w hw => ?_
      rwa [dist_eq_norm] at hw
    have hz0 : h ⟨x0, y0⟩ ≠ 0 := norm_pos_iff.1 (hR0.trans hlt)
    have hkey : ∀ᶠ w in 𝓝[≠] (⟨x0, y0⟩ : ℂ), Good (planeMap (pre ++ .sis x0 y0 R :: post) b) w ∧
        planeMap (pre ++ .sis x0 y0 R :: post) b w / h ⟨x0, y0⟩ ∈ Complex.slitPlane := by
      filter_upwards [hev, hnear, self_mem_nhdsWithin] with w h1 h2 h3
      have h4 := hnorm w h3
      have h5 : ‖planeMap (pre ++ .sis x0 y0 R :: post) b w - h ⟨x0, y0⟩‖ < ‖h ⟨x0, y0⟩‖ := by
        rw [hsplit, sub_right_comm]
        refine (norm_sub_le _ _).trans_lt ?_
        rw [h4]
        linarith
      have h6 := near_slit hz0 h5
      refine ⟨⟨h2, fun h0 => ?_⟩, h6⟩
      rw [h0, zero_div] at h6
      exact Complex.slitPlane_ne_zero h6 rfl
    refine ⟨hkey.mono fun w hw => hw.1.2, ?_⟩
    rw [if_neg (not_lt.2 hlt.le)]
    refine hasIndex_of_slit (h := fun _ => h ⟨x0, y0⟩) (hkey.mono fun w hw => ⟨hw.1, ⟨contDiffAt_const, hz0⟩, hw.2⟩)
      fun a b c d _ _ _ _ => by simp [around_const]

theorem Conical.margin {L : ThinLensO ℝ} {x0 y0 : ℝ} {a : ℂ → ℂ} (ha : Conical L x0 y0 a) {h : ℂ}
    (hin : ∀ v : ℂ, v ≠ 0 → (h * conj v).re < (a v * conj v).re) :
    ∃ η > 0, ∀ v : ℂ, v ≠ 0 → η * ‖v‖ ≤ ((a v - h) * conj v).re := by
  have hcont : ContinuousOn (fun v : ℂ => ((a v - h) * conj v).re) (Metric.sphere 0 1) := fun v hv => by
    have hv0 : v ≠ 0 := fun h0 => by simp [h0] at hv
    have h1 := (ha.smooth v hv0).continuousAt
    exact (Complex.continuous_re.continuousAt.comp
      ((h1.sub continuousAt_const).mul Complex.continuous_conj.continuousAt)).continuousWithinAt
  obtain ⟨u, hu, hmin⟩ := (isCompact_sphere (0 : ℂ) 1).exists_isMinOn (NormedSpace.sphere_nonempty.2 zero_le_one) hcont
  have hu0 : u ≠ 0 := fun h0 => by simp [h0] at hu
  refine ⟨((a u - h) * conj u).re, ?_, fun v hv => ?_⟩
  · rw [sub_mul, Complex.sub_re]
    exact sub_pos.2 (hin u hu0)
  · have hn : 0 < ‖v‖ := norm_pos_iff.2 hv
    have h1 : ((‖v‖⁻¹ : ℝ) : ℂ) * v ∈ Metric.sphere (0 : ℂ) 1 := by
      rw [mem_sphere_zero_iff_norm, norm_mul, Complex.norm_real, norm_inv, norm_norm, inv_mul_cancel₀ hn.ne']
    have h2 := isMinOn_iff.1 hmin _ h1
    rw [ha.scale _ (inv_pos.2 hn), map_mul, Complex.conj_ofReal, mul_left_comm, Complex.re_ofReal_mul] at h2
    rw [← le_div_iff₀ hn, div_eq_inv_mul]
    exact h2

/-- A source outside the cut is beyond it in some direction. -/
theorem Conical.outside {L : ThinLensO ℝ} {x0 y0 : ℝ} {a : ℂ → ℂ} (ha : Conical L x0 y0 a) {h : ℂ}
    (hin : ¬∀ v : ℂ, v ≠ 0 → (h * conj v).re < (a v * conj v).re) (hon : ¬∃ v : ℂ, v ≠ 0 ∧ a v = h) :
    ∃ u : ℂ, u ≠ 0 ∧ ∀ v : ℂ, v ≠ 0 → (a v * conj u).re ≤ (a u * conj u).re ∧ (a u * conj u).re < (h * conj u).re := by
  by_contra hno
  push Not at hno hin
  have hge : ∀ u : ℂ, u ≠ 0 → (h * conj u).re ≤ (a u * conj u).re := fun u hu => by
    obtain ⟨v, hv, h1⟩ := hno u hu
    exact h1 (ha.support u v hu hv)
  obtain ⟨v, hv, hle⟩ := hin
  refine hon ⟨v, hv, ?_⟩
  -- in every direction `d`
  have key : ∀ d : ℂ, 0 ≤ ((a v - h) * conj d).re := by
    intro d
    have hlim : Tendsto (fun t : ℝ => ((a (v + t * d) - h) * conj d).re) (𝓝[>] 0) (𝓝 ((a v - h) * conj d).re) := by
      have h0 : ContinuousAt (fun t : ℝ => v + t * d) 0 := by fun_prop
      have h1 : ContinuousAt (fun t : ℝ => a (v + t * d)) 0 :=
        ContinuousAt.comp (g := a) (by simpa using (ha.smooth v hv).continuousAt) h0
      have h2 : ContinuousAt (fun t : ℝ => ((a (v + t * d) - h) * conj d).re) 0 :=
        Complex.continuous_re.continuousAt.comp ((h1.sub continuousAt_const).mul continuousAt_const)
      have h3 := h2.tendsto
      simp only [Complex.ofReal_zero, zero_mul, add_zero] at h3
      exact h3.mono_left nhdsWithin_le_nhds
    refine ge_of_tendsto hlim ?_
    have hne : ∀ᶠ t : ℝ in 𝓝[>] 0, v + t * d ≠ 0 := by
      have h0 : ContinuousAt (fun t : ℝ => v + t * d) 0 := by fun_prop
      exact (h0.eventually_ne (by simpa using hv)).filter_mono nhdsWithin_le_nhds
    filter_upwards [hne, self_mem_nhdsWithin] with t h1 h2
    have ht : 0 < t := h2
    have k1 := hge _ h1
    have k2 := ha.support v _ hv h1
    rw [← sub_nonneg, ← Complex.sub_re, ← sub_mul, map_add, map_mul, Complex.conj_ofReal, mul_add, Complex.add_re,
      mul_left_comm, Complex.re_ofReal_mul] at k1
    have k3 : ((a (v + t * d) - h) * conj v).re ≤ 0 := by
      rw [sub_mul, Complex.sub_re]
      linarith
    exact nonneg_of_mul_nonneg_right (by linarith) ht
  have h1 := key (-(a v - h))
  rw [map_neg, mul_neg, Complex.neg_re, Complex.mul_conj, Complex.ofReal_re] at h1
  have h2 : Complex.normSq (a v - h) = 0 := le_antisymm (by linarith) (Complex.normSq_nonneg _)
  exact sub_eq_zero.1 (Complex.normSq_eq_zero.1 h2)

/-- A conical singularity counts one where its cut covers the source. -/
theorem index_cone {pre post : List PlaneMember} {L : ThinLensO ℝ} {x0 y0 : ℝ} {a : ℂ → ℂ}
    (hl : ∀ m ∈ pre ++ .cone L x0 y0 a :: post, m.Valid) (hp : (x0, y0) ∉ planePoles (pre ++ post))
    (hon : ¬∃ v : ℂ, v ≠ 0 ∧ a v = planeMap (pre ++ post) b ⟨x0, y0⟩) :
    (∀ᶠ w in 𝓝[≠] (⟨x0, y0⟩ : ℂ), planeMap (pre ++ .cone L x0 y0 a :: post) b w ≠ 0) ∧ ∃ k : ℤ,
      HasIndex (planeMap (pre ++ .cone L x0 y0 a :: post) b) ⟨x0, y0⟩ k ∧
      ((∀ v : ℂ, v ≠ 0 → (planeMap (pre ++ post) b ⟨x0, y0⟩ * conj v).re < (a v * conj v).re) → k = 1) ∧
      (¬(∀ v : ℂ, v ≠ 0 → (planeMap (pre ++ post) b ⟨x0, y0⟩ * conj v).re < (a v * conj v).re) → k = 0) := by
  have hl' : ∀ m ∈ pre ++ post, m.Valid := fun m hm => hl m (by
    rw [List.mem_append] at hm ⊢
    rw [List.mem_cons]
    tauto)
  have ha : Conical L x0 y0 a := hl (.cone L x0 y0 a) (by simp)
  have hc := list_continuousAt (b := b) hl' hp
  simp only at hc
  set h := planeMap (pre ++ post) b with hh
  have hsplit : ∀ w, planeMap (pre ++ .cone L x0 y0 a :: post) b w = h w - a (w - ⟨x0, y0⟩) := by
    intro w
    rw [hh, planeMap, planeMap]
    simp only [List.map_append, List.map_cons, List.sum_append, List.sum_cons, cd]
    ring
  have hnear := near_special (b := b) hl (⟨x0, y0⟩ : ℂ)
  by_cases hin : ∀ v : ℂ, v ≠ 0 → (h ⟨x0, y0⟩ * conj v).re < (a v * conj v).re
  · obtain ⟨η, hη, hm⟩ := ha.margin hin
    have hev : ∀ᶠ w in 𝓝[≠] (⟨x0, y0⟩ : ℂ), ‖h w - h ⟨x0, y0⟩‖ < η := by
      refine (Metric.continuousAt_iff'.1 hc _ hη).filter_mono nhdsWithin_le_nhds |>.mono fun w hw => ?_
      rwa [dist_eq_norm] at hw
    have hkey : ∀ᶠ w in 𝓝[≠] (⟨x0, y0⟩ : ℂ), Good (planeMap (pre ++ .cone L x0 y0 a :: post) b) w ∧
        planeMap (pre ++ .cone L x0 y0 a :: post) b w / (-1 * (w - ⟨x0, y0⟩)) ∈ Complex.slitPlane := by
      filter_upwards [hev, hnear, self_mem_nhdsWithin] with w h1 h2 h3
      have hw : w - ⟨x0, y0⟩ ≠ 0 := sub_ne_zero.2 h3
      have hn : 0 < ‖w - ⟨x0, y0⟩‖ := norm_pos_iff.2 hw
      have h4 : 0 < (planeMap (pre ++ .cone L x0 y0 a :: post) b w * conj (-1 * (w - ⟨x0, y0⟩))).re := by
        rw [hsplit]
        set v := w - ⟨x0, y0⟩
        have e : (h w - a v) * conj (-1 * v) = (a v - h ⟨x0, y0⟩) * conj v - (h w - h ⟨x0, y0⟩) * conj v := by
          rw [map_mul, map_neg, map_one]
          ring
        have h5 : ((h w - h ⟨x0, y0⟩) * conj v).re < η * ‖v‖ := by
          refine (Complex.re_le_norm _).trans_lt ?_
          rw [norm_mul, Complex.norm_conj]
          exact mul_lt_mul_of_pos_right h1 hn
        rw [e, Complex.sub_re]
        linarith [hm v hw]
      refine ⟨⟨h2, fun h0 => ?_⟩, div_slit (mul_ne_zero (by norm_num) hw) h4⟩
      rw [h0, zero_mul] at h4
      exact lt_irrefl _ h4
    exact ⟨hkey.mono fun w hw => hw.1.2, 1, hasIndex_one (by norm_num) hkey, fun _ => rfl, fun h' => absurd hin h'⟩
  · obtain ⟨u, hu, hout⟩ := ha.outside hin hon
    have hlt := (hout u hu).2
    have hev : ∀ᶠ w in 𝓝[≠] (⟨x0, y0⟩ : ℂ), (a u * conj u).re < (h w * conj u).re := by
      have h1 : ContinuousAt (fun w => (h w * conj u).re) (⟨x0, y0⟩ : ℂ) :=
        Complex.continuous_re.continuousAt.comp (hc.mul continuousAt_const)
      exact (h1.eventually (lt_mem_nhds hlt)).filter_mono nhdsWithin_le_nhds
    have hkey : ∀ᶠ w in 𝓝[≠] (⟨x0, y0⟩ : ℂ), Good (planeMap (pre ++ .cone L x0 y0 a :: post) b) w ∧
        planeMap (pre ++ .cone L x0 y0 a :: post) b w / u ∈ Complex.slitPlane := by
      filter_upwards [hev, hnear, self_mem_nhdsWithin] with w h1 h2 h3
      have h4 : 0 < (planeMap (pre ++ .cone L x0 y0 a :: post) b w * conj u).re := by
        rw [hsplit, sub_mul, Complex.sub_re]
        linarith [(hout _ (sub_ne_zero.2 h3)).1]
      refine ⟨⟨h2, fun h0 => ?_⟩, div_slit hu h4⟩
      rw [h0, zero_mul] at h4
      exact lt_irrefl _ h4
    refine ⟨hkey.mono fun w hw => hw.1.2, 0, ?_, fun h' => absurd h' hin, fun _ => rfl⟩
    exact hasIndex_of_slit (h := fun _ => u) (hkey.mono fun w hw => ⟨hw.1, ⟨contDiffAt_const, hu⟩, hw.2⟩)
      fun a b c d _ _ _ _ => by simp [around_const]

theorem cusp_pole {m : PlaneMember} {p : ℝ × ℝ} (h : m.cusp = some p) : m.pole = some p := by
  cases m with
  | field => simp [cusp] at h
  | sis => exact h
  | cone => exact h
  | spike => simp [cusp] at h
  | other => simp [cusp] at h

theorem cusp_not_star {m : PlaneMember} {p p' : ℝ × ℝ} (h : m.cusp = some p) : m.starAt ≠ some p' := by
  cases m <;> simp [cusp, starAt] at h ⊢

theorem index_cusp {pre post : List PlaneMember} {m : PlaneMember} {p : ℝ × ℝ} (hl : ∀ m' ∈ pre ++ m :: post, m'.Valid)
    (hm : m.cusp = some p) (hp : p ∉ planePoles (pre ++ post))
    (hon : ¬m.onCut ((planeMap (pre ++ post) b ⟨p.1, p.2⟩).re, (planeMap (pre ++ post) b ⟨p.1, p.2⟩).im)) :
    (∀ᶠ w in 𝓝[≠] (⟨p.1, p.2⟩ : ℂ), planeMap (pre ++ m :: post) b w ≠ 0) ∧ ∃ k : ℤ,
      HasIndex (planeMap (pre ++ m :: post) b) ⟨p.1, p.2⟩ k ∧
      (m.inCut ((planeMap (pre ++ post) b ⟨p.1, p.2⟩).re, (planeMap (pre ++ post) b ⟨p.1, p.2⟩).im) → k = 1) ∧
      (¬m.inCut ((planeMap (pre ++ post) b ⟨p.1, p.2⟩).re, (planeMap (pre ++ post) b ⟨p.1, p.2⟩).im) → k = 0) := by
  cases m with
  | field => simp [cusp] at hm
  | sis x0 y0 R =>
    simp only [cusp, Option.some.injEq] at hm
    subst hm
    have hR0 : 0 < R := hl (.sis x0 y0 R) (by simp)
    simp only [onCut, inCut] at hon ⊢
    have e : (planeMap (pre ++ post) b ⟨x0, y0⟩).re ^ 2 + (planeMap (pre ++ post) b ⟨x0, y0⟩).im ^ 2 =
        ‖planeMap (pre ++ post) b ⟨x0, y0⟩‖ ^ 2 := by
      rw [← Complex.normSq_eq_norm_sq, Complex.normSq_apply]
      ring
    rw [e] at hon ⊢
    rw [pow_lt_pow_iff_left₀ (norm_nonneg _) hR0.le two_ne_zero]
    obtain ⟨h1, h2⟩ := index_sis (b := b) hl hp fun h => hon (by rw [h])
    exact ⟨h1, _, h2, fun h => if_pos h, fun h => if_neg h⟩
  | cone L x0 y0 a =>
    simp only [cusp, Option.some.injEq] at hm
    subst hm
    exact index_cone hl hp hon
  | spike => simp [cusp] at hm
  | other => simp [cusp] at hm

end

end Caustics

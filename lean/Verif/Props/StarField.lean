import Verif.Model.Images
import Verif.Model.MultiplaneNum
import Verif.Lemmas.Softening
import Verif.Lemmas.StarField
import Mathlib.Tactic.Linarith
import Mathlib.Tactic.Positivity
import Mathlib.Analysis.SpecialFunctions.Trigonometric.Basic

/-!
C131: how many images a field of point masses makes.
-/

namespace Caustics

open ComplexConjugate

/-- The members of a field of stars: `Point` (with `s = 0`), `MassSheet`, `ExternalShear`. -/
inductive FieldLens where
  | point (x0 y0 Rein : ℝ)
  | sheet (x0 y0 kappa : ℝ)
  | shear (x0 y0 g1 g2 : ℝ)

namespace FieldLens

/-- What their methods compute. -/
noncomputable def thin (z : ℝ) : FieldLens → ThinLensO ℝ
  | point x0 y0 Rein => ⟨z, pointDeflectionOpt x0 y0 Rein 0, fun x y => some (pointPotential x0 y0 Rein 0 x y)⟩
  | sheet x0 y0 kappa =>
    ⟨z, fun x y => some (sheetDeflection x0 y0 kappa x y), fun x y => some (sheetPotential x0 y0 kappa x y)⟩
  | shear x0 y0 g1 g2 =>
    ⟨z, fun x y => some (shearDeflection x0 y0 g1 g2 x y), fun x y => some (shearPotential x0 y0 g1 g2 x y)⟩

/-- Where the point masses are. -/
def place : FieldLens → Option (ℝ × ℝ)
  | point x0 y0 _ => some (x0, y0)
  | _ => none

def kappa : FieldLens → ℝ
  | sheet _ _ k => k
  | _ => 0

def gamma : FieldLens → ℝ × ℝ
  | shear _ _ g1 g2 => (g1, g2)
  | _ => 0

/-- A point mass with no Einstein radius is no lens. -/
def Ok : FieldLens → Prop
  | point _ _ Rein => Rein ≠ 0
  | _ => True

/-- The deflection as a complex number. -/
noncomputable def cdefl : FieldLens → ℂ → ℂ
  | point x0 y0 Rein, z => (Rein ^ 2 : ℝ) / (conj z - conj (⟨x0, y0⟩ : ℂ))
  | sheet x0 y0 k, z => (k : ℂ) * (z - ⟨x0, y0⟩)
  | shear x0 y0 g1 g2, z => (⟨g1, g2⟩ : ℂ) * (conj z - conj (⟨x0, y0⟩ : ℂ))

end FieldLens

open FieldLens

/-- The positions of the point masses in a plane, each once. -/
noncomputable def starPlaces (l : List FieldLens) : Finset (ℝ × ℝ) := by
  classical exact (l.filterMap place).toFinset

/-- The members that are not point masses. -/
def smoothPart (l : List FieldLens) : List FieldLens := l.filter fun m => (place m).isNone

/-- The positions that `raytrace` of a `SinglePlane` maps to `b`. -/
def fieldImages (z : ℝ) (l : List FieldLens) (b : ℝ × ℝ) : Set (ℝ × ℝ) :=
  {p | raytraceOpt (singlePlaneO z (l.map (thin z))).reduced p.1 p.2 = some b}

/-! ### To complex numbers -/

theorem field_defl (z : ℝ) (m : FieldLens) (p : ℝ × ℝ) (h : m.place ≠ some p) :
    (m.thin z).reduced p.1 p.2 = some ((m.cdefl ⟨p.1, p.2⟩).re, (m.cdefl ⟨p.1, p.2⟩).im) := by
  cases m with
  | point x0 y0 R =>
    have hne : p.1 - x0 ≠ 0 ∨ p.2 - y0 ≠ 0 := by
      by_contra hc
      push Not at hc
      refine h (congrArg some (Prod.ext ?_ ?_)) <;> simp only <;> linarith
    have hpos : 0 < (p.1 - x0) ^ 2 + (p.2 - y0) ^ 2 := by
      rcases hne with h | h <;> positivity
    have hs := Real.sq_sqrt hpos.le
    simp only [thin]
    rw [pointDeflectionOpt_eq (by rw [add_zero]; exact (Real.sqrt_pos.2 hpos).ne')]
    simp only [pointDeflection, translateRotate, add_zero, hs, cdefl, Complex.div_re, Complex.div_im,
      Complex.normSq_apply, Complex.sub_re, Complex.sub_im, Complex.conj_re, Complex.conj_im, Complex.ofReal_re,
      Complex.ofReal_im]
    have e : (p.1 - x0) * (p.1 - x0) + (-p.2 - -y0) * (-p.2 - -y0) = (p.1 - x0) ^ 2 + (p.2 - y0) ^ 2 := by ring
    rw [e]
    refine congrArg some (Prod.ext ?_ ?_) <;> simp only <;> ring
  | sheet x0 y0 k =>
    simp only [thin, sheetDeflection, translateRotate, cdefl]
    refine congrArg some (Prod.ext ?_ ?_) <;> simp <;> ring
  | shear x0 y0 g1 g2 =>
    simp only [thin, shearDeflection, translateRotate, cdefl]
    refine congrArg some (Prod.ext ?_ ?_) <;> simp <;> ring

theorem field_pole (z : ℝ) (m : FieldLens) (p : ℝ × ℝ) (h : m.place = some p) :
    (m.thin z).reduced p.1 p.2 = none := by
  cases m with
  | point x0 y0 R =>
    simp only [place, Option.some.injEq] at h
    subst h
    simp [thin, pointDeflectionOpt, translateRotate, sqrtOpt, divOpt]
  | sheet x0 y0 k => simp [place] at h
  | shear x0 y0 g1 g2 => simp [place] at h

theorem field_sum (z : ℝ) (l : List FieldLens) (p : ℝ × ℝ) (a : ℝ × ℝ) :
    (l.map (thin z)).foldlM (fun a l => do
        let c ← l.reduced p.1 p.2
        return (a.1 + c.1, a.2 + c.2)) a = some b ↔
      (∀ m ∈ l, m.place ≠ some p) ∧
        (⟨b.1, b.2⟩ : ℂ) = ⟨a.1, a.2⟩ + (l.map fun m => m.cdefl ⟨p.1, p.2⟩).sum := by
  induction l generalizing a with
  | nil =>
    simp only [List.map_nil, List.foldlM_nil, Option.pure_def, Option.some.injEq, List.not_mem_nil, false_implies,
      implies_true, List.sum_nil, add_zero, true_and, Complex.mk.injEq]
    exact ⟨fun h => ⟨congrArg Prod.fst h.symm, congrArg Prod.snd h.symm⟩, fun h => (Prod.ext h.1 h.2).symm⟩
  | cons m l ih =>
    rw [List.map_cons, List.foldlM_cons]
    by_cases hm : m.place = some p
    · rw [field_pole z m p hm]
      simp [hm]
    · rw [field_defl z m p hm]
      simp only [Option.bind_eq_bind, Option.bind_some, Option.pure_def] at ih ⊢
      rw [ih, List.forall_mem_cons, List.map_cons, List.sum_cons]
      simp only [ne_eq, hm, not_false_eq_true, true_and]
      refine and_congr_right fun _ => ?_
      rw [← add_assoc]
      have e : (⟨a.1 + (m.cdefl ⟨p.1, p.2⟩).re, a.2 + (m.cdefl ⟨p.1, p.2⟩).im⟩ : ℂ) =
          ⟨a.1, a.2⟩ + m.cdefl ⟨p.1, p.2⟩ := Complex.ext rfl rfl
      rw [e]

theorem field_image (z : ℝ) (l : List FieldLens) (p b : ℝ × ℝ) :
    raytraceOpt (singlePlaneO z (l.map (thin z))).reduced p.1 p.2 = some b ↔
      (∀ m ∈ l, m.place ≠ some p) ∧
        (⟨p.1, p.2⟩ : ℂ) - (l.map fun m => m.cdefl ⟨p.1, p.2⟩).sum = ⟨b.1, b.2⟩ := by
  have h := fun c => field_sum (b := c) z l p (0, 0)
  rw [show (⟨((0, 0) : ℝ × ℝ).1, ((0, 0) : ℝ × ℝ).2⟩ : ℂ) = 0 from rfl] at h
  simp only [raytraceOpt, singlePlaneO, Option.bind_eq_bind, Option.pure_def, Option.bind_eq_some_iff,
    Option.some.injEq] at h ⊢
  constructor
  · rintro ⟨c, hc, he⟩
    obtain ⟨h1, h2⟩ := (h c).1 hc
    refine ⟨h1, ?_⟩
    rw [zero_add] at h2
    rw [← h2, ← he]
    exact Complex.ext rfl rfl
  · rintro ⟨h1, h2⟩
    set w := (l.map fun m => m.cdefl ⟨p.1, p.2⟩).sum with hw
    refine ⟨(w.re, w.im), (h _).2 ⟨h1, by rw [zero_add]⟩, ?_⟩
    have h3 := congrArg Complex.re h2
    have h4 := congrArg Complex.im h2
    exact Prod.ext h3 h4

/-! ### Gathering the members -/

/-- The total strength of the point masses at a place. -/
noncomputable def massAt (l : List FieldLens) (i : ℂ) : ℝ := by
  classical exact (l.map fun m => match m with
    | .point x0 y0 R => if (⟨x0, y0⟩ : ℂ) = i then R ^ 2 else 0
    | _ => 0).sum

/-- The constant part of the deflection of sheets and shears. -/
noncomputable def smoothConst (l : List FieldLens) : ℂ :=
  (l.map fun m => match m with
    | .point _ _ _ => 0
    | .sheet x0 y0 k => (k : ℂ) * ⟨x0, y0⟩
    | .shear x0 y0 g1 g2 => (⟨g1, g2⟩ : ℂ) * conj (⟨x0, y0⟩ : ℂ)).sum

noncomputable def kappaSum (l : List FieldLens) : ℝ := (l.map kappa).sum

noncomputable def gammaSum (l : List FieldLens) : ℝ × ℝ := (l.map gamma).sum

noncomputable def starSet (l : List FieldLens) : Finset ℂ := by
  classical exact (starPlaces l).image fun c => (⟨c.1, c.2⟩ : ℂ)

theorem mkC_injective : Function.Injective fun c : ℝ × ℝ => (⟨c.1, c.2⟩ : ℂ) := fun _ _ h =>
  Prod.ext (congrArg Complex.re h) (congrArg Complex.im h)

theorem starSet_card (l : List FieldLens) : (starSet l).card = (starPlaces l).card :=
  Finset.card_image_of_injective _ mkC_injective

theorem mem_starPlaces {l : List FieldLens} {c : ℝ × ℝ} : c ∈ starPlaces l ↔ ∃ m ∈ l, m.place = some c := by
  simp [starPlaces]

theorem mem_starSet {l : List FieldLens} {p : ℝ × ℝ} :
    (⟨p.1, p.2⟩ : ℂ) ∈ starSet l ↔ ∃ m ∈ l, m.place = some p := by
  rw [← mem_starPlaces, starSet, Finset.mem_image]
  exact ⟨fun ⟨c, hc, he⟩ => mkC_injective he ▸ hc, fun h => ⟨p, h, rfl⟩⟩

theorem massAt_nonneg (l : List FieldLens) (i : ℂ) : 0 ≤ massAt l i := by
  refine List.sum_nonneg fun r hr => ?_
  obtain ⟨m, -, rfl⟩ := List.mem_map.1 hr
  cases m <;> simp only [le_refl]
  split_ifs <;> positivity

theorem massAt_cons (m : FieldLens) (l : List FieldLens) (i : ℂ) : massAt (m :: l) i = massAt [m] i + massAt l i := by
  simp [massAt]

theorem massAt_pos {l : List FieldLens} (hok : ∀ m ∈ l, m.Ok) {i : ℂ} (hi : i ∈ starSet l) : 0 < massAt l i := by
  obtain ⟨c, hc, rfl⟩ := Finset.mem_image.1 hi
  rw [mem_starPlaces] at hc
  clear hi
  induction l with
  | nil => simp at hc
  | cons m l ih =>
    rw [massAt_cons]
    obtain ⟨n, hn, he⟩ := hc
    rcases List.mem_cons.1 hn with rfl | hn
    · cases n with
      | point x0 y0 R =>
        have hR : R ≠ 0 := hok _ hn
        simp only [place, Option.some.injEq] at he
        subst he
        have h1 := massAt_nonneg l (⟨x0, y0⟩ : ℂ)
        have : massAt [.point x0 y0 R] (⟨x0, y0⟩ : ℂ) = R ^ 2 := by simp [massAt]
        rw [this]
        positivity
      | sheet => simp [place] at he
      | shear => simp [place] at he
    · have := ih (fun m hm => hok m (List.mem_cons_of_mem _ hm)) ⟨n, hn, he⟩
      have := massAt_nonneg [m] ⟨c.1, c.2⟩
      linarith

theorem star_gather (l : List FieldLens) (S : Finset ℂ)
    (hS : ∀ m ∈ l, ∀ c : ℝ × ℝ, m.place = some c → (⟨c.1, c.2⟩ : ℂ) ∈ S) (z : ℂ) :
    (l.map fun m => m.cdefl z).sum =
      (kappaSum l : ℂ) * z + (⟨(gammaSum l).1, (gammaSum l).2⟩ : ℂ) * conj z - smoothConst l +
        ∑ i ∈ S, (massAt l i : ℂ) / (conj z - conj i) := by
  induction l with
  | nil =>
    have : (⟨0, 0⟩ : ℂ) = 0 := rfl
    simp [kappaSum, gammaSum, smoothConst, massAt, this]
  | cons m l ih =>
    have ih := ih fun m hm => hS m (List.mem_cons_of_mem _ hm)
    have hm := hS m (by simp)
    rw [List.map_cons, List.sum_cons, ih]
    have e1 : kappaSum (m :: l) = m.kappa + kappaSum l := by simp [kappaSum]
    have e2 : gammaSum (m :: l) = m.gamma + gammaSum l := by simp [gammaSum]
    have e3 : smoothConst (m :: l) = smoothConst [m] + smoothConst l := by simp [smoothConst]
    have e4 : ∑ i ∈ S, (massAt (m :: l) i : ℂ) / (conj z - conj i) =
        ∑ i ∈ S, (massAt [m] i : ℂ) / (conj z - conj i) + ∑ i ∈ S, (massAt l i : ℂ) / (conj z - conj i) := by
      rw [← Finset.sum_add_distrib]
      refine Finset.sum_congr rfl fun i _ => ?_
      rw [massAt_cons, Complex.ofReal_add, add_div]
    have e5 : (⟨(m.gamma + gammaSum l).1, (m.gamma + gammaSum l).2⟩ : ℂ) =
        ⟨m.gamma.1, m.gamma.2⟩ + ⟨(gammaSum l).1, (gammaSum l).2⟩ := Complex.ext rfl rfl
    rw [e1, e2, e3, e4, e5, Complex.ofReal_add]
    have key : m.cdefl z = (m.kappa : ℂ) * z + (⟨m.gamma.1, m.gamma.2⟩ : ℂ) * conj z - smoothConst [m] +
        ∑ i ∈ S, (massAt [m] i : ℂ) / (conj z - conj i) := by
      have h0 : (⟨0, 0⟩ : ℂ) = 0 := rfl
      cases m with
      | point x0 y0 R =>
        have hc := hm (x0, y0) rfl
        simp only [cdefl, kappa, gamma, smoothConst, massAt, List.map_cons, List.map_nil, List.sum_cons, List.sum_nil,
          add_zero, Complex.ofReal_zero, zero_mul, Prod.fst_zero, Prod.snd_zero, h0, zero_add, sub_zero]
        rw [Finset.sum_eq_single_of_mem _ hc]
        · simp
        · intro i _ hi
          rw [if_neg (Ne.symm hi)]
          simp
      | sheet x0 y0 k =>
        simp [cdefl, kappa, gamma, smoothConst, massAt, h0]
        ring
      | shear x0 y0 g1 g2 =>
        simp [cdefl, kappa, gamma, smoothConst, massAt]
        ring
    rw [key]
    ring

theorem field_star_image (z : ℝ) (l : List FieldLens) (p b : ℝ × ℝ) :
    p ∈ fieldImages z l b ↔
      StarImage (starSet l) (fun i => massAt l i) (1 - kappaSum l : ℝ) ⟨(gammaSum l).1, (gammaSum l).2⟩
        (⟨b.1, b.2⟩ - smoothConst l) ⟨p.1, p.2⟩ := by
  have hS : ∀ m ∈ l, ∀ c : ℝ × ℝ, m.place = some c → (⟨c.1, c.2⟩ : ℂ) ∈ starSet l := fun m hm c hc =>
    mem_starSet.2 ⟨m, hm, hc⟩
  rw [fieldImages, Set.mem_ofPred_eq, field_image, star_gather l _ hS, StarImage, mem_starSet]
  push Not
  refine and_congr Iff.rfl ?_
  push_cast
  constructor <;> intro h <;> linear_combination h

theorem fieldImages_bound {z : ℝ} {l : List FieldLens} {b : ℝ × ℝ} {d : ℕ}
    (h : {w | StarImage (starSet l) (fun i => massAt l i) (1 - kappaSum l : ℝ) ⟨(gammaSum l).1, (gammaSum l).2⟩
        (⟨b.1, b.2⟩ - smoothConst l) w}.Finite ∧
      {w | StarImage (starSet l) (fun i => massAt l i) (1 - kappaSum l : ℝ) ⟨(gammaSum l).1, (gammaSum l).2⟩
        (⟨b.1, b.2⟩ - smoothConst l) w}.ncard ≤ d) :
    (fieldImages z l b).Finite ∧ (fieldImages z l b).ncard ≤ d := by
  have hm : Set.MapsTo (fun c : ℝ × ℝ => (⟨c.1, c.2⟩ : ℂ)) (fieldImages z l b)
      {w | StarImage (starSet l) (fun i => massAt l i) (1 - kappaSum l : ℝ) ⟨(gammaSum l).1, (gammaSum l).2⟩
        (⟨b.1, b.2⟩ - smoothConst l) w} := fun p hp => (field_star_image z l p b).1 hp
  exact ⟨Set.Finite.of_injOn hm mkC_injective.injOn h.1,
    (Set.ncard_le_ncard_of_injOn _ hm mkC_injective.injOn h.1).trans h.2⟩

/-! ### The property -/

/-- A field of point masses with external shear: at most `(N + 1)²` images, where `N` is the number of places at which
there are point masses. -/
theorem C131_sheared (z : ℝ) (l : List FieldLens) (hok : ∀ m ∈ l, m.Ok) (hne : (starPlaces l).Nonempty)
    (hk : (l.map kappa).sum ≠ 1) (hg : (l.map gamma).sum ≠ 0) (b : ℝ × ℝ) :
    (fieldImages z l b).Finite ∧ (fieldImages z l b).ncard ≤ ((starPlaces l).card + 1) ^ 2 := by
  rw [← starSet_card]
  refine fieldImages_bound (star_sheared ?_ ?_ (hne.image _) fun i hi => ?_)
  · rw [Complex.ofReal_ne_zero, sub_ne_zero]
    exact hk.symm
  · intro h
    exact hg (mkC_injective (h.trans rfl))
  · rw [Complex.ofReal_ne_zero]
    exact (massAt_pos hok hi).ne'

/-- Without shear: at most `N² + 1` images, unless there is one point mass only and the source is exactly behind it. -/
theorem C131_unsheared (z : ℝ) (l : List FieldLens) (hok : ∀ m ∈ l, m.Ok)
    (hk : (l.map kappa).sum ≠ 1) (hg : (l.map gamma).sum = 0) (b : ℝ × ℝ)
    (hring : ∀ c, starPlaces l = {c} → c ∉ fieldImages z (smoothPart l) b) :
    (fieldImages z l b).Finite ∧ (fieldImages z l b).ncard ≤ (starPlaces l).card ^ 2 + 1 := by
  have hg0 : (⟨(gammaSum l).1, (gammaSum l).2⟩ : ℂ) = 0 := by
    rw [gammaSum, hg]
    rfl
  have hk0 : ((1 - kappaSum l : ℝ) : ℂ) ≠ 0 := by
    rw [Complex.ofReal_ne_zero, sub_ne_zero]
    exact hk.symm
  rw [← starSet_card]
  refine fieldImages_bound ?_
  rw [hg0]
  refine star_unsheared hk0 (fun i hi => ?_) fun k hS hak => ?_
  · rw [Complex.ofReal_ne_zero]
    exact (massAt_pos hok hi).ne'
  · have hc : starPlaces l = {(k.re, k.im)} := by
      ext c
      have h1 : (⟨c.1, c.2⟩ : ℂ) ∈ starSet l ↔ (⟨c.1, c.2⟩ : ℂ) = k := by rw [hS, Finset.mem_singleton]
      rw [mem_starSet, ← mem_starPlaces] at h1
      rw [h1, Finset.mem_singleton]
      exact ⟨fun h => by rw [← h], fun h => by rw [h]⟩
    refine hring _ hc ((field_star_image z _ _ b).2 ?_)
    have es : starSet (smoothPart l) = ∅ := by
      refine Finset.eq_empty_of_forall_notMem fun w hw => ?_
      obtain ⟨c, hc, -⟩ := Finset.mem_image.1 hw
      obtain ⟨m, hm, he⟩ := mem_starPlaces.1 hc
      simp [smoothPart, he] at hm
    have e1 : kappaSum (smoothPart l) = kappaSum l := by
      clear hok hk hg hring hg0 hk0 hS hak hc es
      induction l with
      | nil => rfl
      | cons m l ih => cases m <;> simp_all [kappaSum, smoothPart, place, kappa]
    have e2 : gammaSum (smoothPart l) = gammaSum l := by
      clear hok hk hg hring hg0 hk0 hS hak hc es e1
      induction l with
      | nil => rfl
      | cons m l ih => cases m <;> simp_all [gammaSum, smoothPart, place, gamma]
    have e3 : smoothConst (smoothPart l) = smoothConst l := by
      clear hok hk hg hring hg0 hk0 hS hak hc es e1 e2
      induction l with
      | nil => rfl
      | cons m l ih => cases m <;> simp_all [smoothConst, smoothPart, place]
    rw [StarImage, es, e1, e2, e3, hg0]
    exact ⟨by simp, by simpa using hak⟩

/-- With sheets that add up to the critical density: at most `N + 1` images. -/
theorem C131_critical (z : ℝ) (l : List FieldLens) (hok : ∀ m ∈ l, m.Ok) (hne : (starPlaces l).Nonempty)
    (hk : (l.map kappa).sum = 1) (b : ℝ × ℝ) :
    (fieldImages z l b).Finite ∧ (fieldImages z l b).ncard ≤ (starPlaces l).card + 1 := by
  have hk0 : ((1 - kappaSum l : ℝ) : ℂ) = 0 := by
    rw [kappaSum, hk]
    simp
  rw [← starSet_card]
  refine fieldImages_bound ?_
  rw [hk0]
  refine star_critical (hne.image _) fun i hi => ?_
  rw [Complex.ofReal_ne_zero]
  exact (massAt_pos hok hi).ne'

/-- The number `N² + 1` is reached: two equal point masses less than `2 √2` of their Einstein radii apart make five images
of a source in the middle. -/
theorem C131_sharp_two (z d R : ℝ) (hd : 0 < d) (h : d ^ 2 < 2 * R ^ 2) :
    (fieldImages z [.point d 0 R, .point (-d) 0 R] (0, 0)).ncard = 5 := by
  have hR : R ≠ 0 := by
    rintro rfl
    nlinarith
  have hpl : starPlaces [.point d 0 R, .point (-d) 0 R] = {(d, 0), (-d, 0)} := by
    ext c
    simp [mem_starPlaces, place, eq_comm]
  have hcard : (starPlaces [.point d 0 R, .point (-d) 0 R]).card = 2 := by
    rw [hpl, Finset.card_pair]
    intro he
    have := congrArg Prod.fst he
    simp only at this
    linarith
  obtain ⟨hfin, hle⟩ := C131_unsheared z [.point d 0 R, .point (-d) 0 R] (by simp [Ok, hR]) (by simp [kappa])
    (by simp [gamma]) (0, 0) (fun c hc => by
      rw [hc, Finset.card_singleton] at hcard
      omega)
  rw [hcard] at hle
  refine le_antisymm hle ?_
  set u := √(d ^ 2 + 2 * R ^ 2) with hu
  set v := √(2 * R ^ 2 - d ^ 2) with hv
  have hu2 : u ^ 2 = d ^ 2 + 2 * R ^ 2 := Real.sq_sqrt (by positivity)
  have hv2 : v ^ 2 = 2 * R ^ 2 - d ^ 2 := Real.sq_sqrt (by linarith)
  have hu0 : 0 < u := Real.sqrt_pos.2 (by positivity)
  have hv0 : 0 < v := Real.sqrt_pos.2 (by linarith)
  have hR2 : 0 < R ^ 2 := by positivity
  have hx : ∀ x : ℝ, x ^ 2 = d ^ 2 + 2 * R ^ 2 → (x, (0 : ℝ)) ∈ fieldImages z [.point d 0 R, .point (-d) 0 R] (0, 0) := by
    intro x hx
    have h1 : x - d ≠ 0 := fun h => by
      have : x = d := by linarith
      subst this
      linarith
    have h2 : x + d ≠ 0 := fun h => by
      have : x = -d := by linarith
      subst this
      linarith
    refine (field_image z _ _ _).2 ⟨?_, ?_⟩
    · simp only [List.mem_cons, List.not_mem_nil, or_false, forall_eq_or_imp, forall_eq, place, ne_eq,
        Option.some.injEq, Prod.mk.injEq, and_true]
      exact ⟨fun h => h1 (by linarith), fun h => h2 (by linarith)⟩
    · have e1 : ∀ t : ℝ, (⟨t, 0⟩ : ℂ) = t := fun t => rfl
      simp only [List.map_cons, List.map_nil, List.sum_cons, List.sum_nil, add_zero, cdefl, e1, Complex.conj_ofReal]
      rw [← Complex.ofReal_sub, ← Complex.ofReal_sub, ← Complex.ofReal_div, ← Complex.ofReal_div, ← Complex.ofReal_add,
        ← Complex.ofReal_sub, Complex.ofReal_inj, sub_neg_eq_add]
      field_simp
      linear_combination x * hx
  have hy : ∀ y : ℝ, y * (y ^ 2 - (2 * R ^ 2 - d ^ 2)) = 0 →
      ((0 : ℝ), y) ∈ fieldImages z [.point d 0 R, .point (-d) 0 R] (0, 0) := by
    intro y hy
    have hp : y ^ 2 + d ^ 2 ≠ 0 := by positivity
    refine (field_image z _ _ _).2 ⟨?_, ?_⟩
    · simp only [List.mem_cons, List.not_mem_nil, or_false, forall_eq_or_imp, forall_eq, place, ne_eq,
        Option.some.injEq, Prod.mk.injEq, not_and_or]
      exact ⟨.inl hd.ne', .inl (by linarith)⟩
    · refine Complex.ext ?_ ?_ <;>
        simp only [List.map_cons, List.map_nil, List.sum_cons, List.sum_nil, add_zero, cdefl, Complex.sub_re,
          Complex.add_re, Complex.sub_im, Complex.add_im, Complex.div_re, Complex.div_im, Complex.normSq_apply,
          Complex.conj_re, Complex.conj_im, Complex.ofReal_re, Complex.ofReal_im]
      · have e1 : (0 - d) * (0 - d) + (-y - -0) * (-y - -0) = y ^ 2 + d ^ 2 := by ring
        have e2 : (0 - -d) * (0 - -d) + (-y - -0) * (-y - -0) = y ^ 2 + d ^ 2 := by ring
        rw [e1, e2]
        ring
      · have e1 : (0 - d) * (0 - d) + (-y - -0) * (-y - -0) = y ^ 2 + d ^ 2 := by ring
        have e2 : (0 - -d) * (0 - -d) + (-y - -0) * (-y - -0) = y ^ 2 + d ^ 2 := by ring
        rw [e1, e2]
        field_simp
        linear_combination hy
  have hsub : (({(u, 0), (-u, 0), (0, v), (0, -v), (0, 0)} : Finset (ℝ × ℝ)) : Set (ℝ × ℝ)) ⊆
      fieldImages z [.point d 0 R, .point (-d) 0 R] (0, 0) := by
    intro p hp
    simp only [Finset.coe_insert, Finset.coe_singleton, Set.mem_insert_iff, Set.mem_singleton_iff] at hp
    rcases hp with rfl | rfl | rfl | rfl | rfl
    · exact hx _ hu2
    · exact hx _ (by rw [neg_sq, hu2])
    · exact hy _ (by rw [hv2, sub_self, mul_zero])
    · exact hy _ (by rw [neg_sq, hv2, sub_self, mul_zero])
    · exact hy _ (by rw [zero_mul])
  have h5 : ({(u, 0), (-u, 0), (0, v), (0, -v), (0, 0)} : Finset (ℝ × ℝ)).card = 5 := by
    have a1 : u ≠ -u := by linarith
    have a2 : v ≠ -v := by linarith
    rw [Finset.card_insert_of_notMem, Finset.card_insert_of_notMem, Finset.card_insert_of_notMem,
      Finset.card_insert_of_notMem, Finset.card_singleton] <;>
      simp [a1, a2, hu0.ne', hv0.ne']
  rw [← h5, ← Set.ncard_coe_finset]
  exact Set.ncard_le_ncard hsub hfin

/-- The number `(N + 1)²` is reached: a point mass with shear makes four images of a source behind it. -/
theorem C131_sharp_shear (z R g : ℝ) (hR : R ≠ 0) (hg : 0 < g) (hg1 : g < 1) :
    (fieldImages z [.point 0 0 R, .shear 0 0 g 0] (0, 0)).ncard = 4 := by
  have hpl : starPlaces [.point 0 0 R, .shear 0 0 g 0] = {(0, 0)} := by
    ext c
    simp [mem_starPlaces, place, eq_comm]
  obtain ⟨hfin, hle⟩ := C131_sheared z [.point 0 0 R, .shear 0 0 g 0] (by simp [Ok, hR]) (by rw [hpl]; simp)
    (by simp [kappa]) (by simp [gamma, hg.ne']) (0, 0)
  rw [hpl, Finset.card_singleton] at hle
  refine le_antisymm (by simpa using hle) ?_
  set u := √(R ^ 2 / (1 - g)) with hu
  set v := √(R ^ 2 / (1 + g)) with hv
  have g1 : 0 < 1 - g := by linarith
  have g2 : 0 < 1 + g := by linarith
  have hR2 : 0 < R ^ 2 := by positivity
  have hu2 : u ^ 2 * (1 - g) = R ^ 2 := by
    rw [hu, Real.sq_sqrt (by positivity)]
    field_simp
  have hv2 : v ^ 2 * (1 + g) = R ^ 2 := by
    rw [hv, Real.sq_sqrt (by positivity)]
    field_simp
  have hu0 : 0 < u := Real.sqrt_pos.2 (by positivity)
  have hv0 : 0 < v := Real.sqrt_pos.2 (by positivity)
  have hx : ∀ x : ℝ, x ≠ 0 → x ^ 2 * (1 - g) = R ^ 2 →
      (x, (0 : ℝ)) ∈ fieldImages z [.point 0 0 R, .shear 0 0 g 0] (0, 0) := by
    intro x h0 hx
    refine (field_image z _ _ _).2 ⟨?_, ?_⟩
    · simp [place, Ne.symm h0]
    · refine Complex.ext ?_ ?_ <;>
        simp only [List.map_cons, List.map_nil, List.sum_cons, List.sum_nil, add_zero, cdefl, Complex.sub_re,
          Complex.add_re, Complex.sub_im, Complex.add_im, Complex.div_re, Complex.div_im, Complex.mul_re, Complex.mul_im,
          Complex.normSq_apply, Complex.conj_re, Complex.conj_im, Complex.ofReal_re, Complex.ofReal_im, neg_zero,
          sub_zero, mul_zero, zero_mul, zero_add, zero_div, add_zero]
      field_simp
      linear_combination hx
  have hy : ∀ y : ℝ, y ≠ 0 → y ^ 2 * (1 + g) = R ^ 2 →
      ((0 : ℝ), y) ∈ fieldImages z [.point 0 0 R, .shear 0 0 g 0] (0, 0) := by
    intro y h0 hy
    refine (field_image z _ _ _).2 ⟨?_, ?_⟩
    · simp [place, Ne.symm h0]
    · refine Complex.ext ?_ ?_ <;>
        simp only [List.map_cons, List.map_nil, List.sum_cons, List.sum_nil, add_zero, cdefl, Complex.sub_re,
          Complex.add_re, Complex.sub_im, Complex.add_im, Complex.div_re, Complex.div_im, Complex.mul_re, Complex.mul_im,
          Complex.normSq_apply, Complex.conj_re, Complex.conj_im, Complex.ofReal_re, Complex.ofReal_im, neg_zero,
          sub_zero, mul_zero, zero_mul, zero_add, zero_div, add_zero]
      field_simp
      linear_combination hy
  have hsub : (({(u, 0), (-u, 0), (0, v), (0, -v)} : Finset (ℝ × ℝ)) : Set (ℝ × ℝ)) ⊆
      fieldImages z [.point 0 0 R, .shear 0 0 g 0] (0, 0) := by
    intro p hp
    simp only [Finset.coe_insert, Finset.coe_singleton, Set.mem_insert_iff, Set.mem_singleton_iff] at hp
    rcases hp with rfl | rfl | rfl | rfl
    · exact hx _ hu0.ne' hu2
    · exact hx _ (neg_ne_zero.2 hu0.ne') (by rw [neg_sq, hu2])
    · exact hy _ hv0.ne' hv2
    · exact hy _ (neg_ne_zero.2 hv0.ne') (by rw [neg_sq, hv2])
  have h4 : ({(u, 0), (-u, 0), (0, v), (0, -v)} : Finset (ℝ × ℝ)).card = 4 := by
    have a1 : u ≠ -u := by linarith
    have a2 : v ≠ -v := by linarith
    rw [Finset.card_insert_of_notMem, Finset.card_insert_of_notMem, Finset.card_insert_of_notMem,
      Finset.card_singleton] <;>
      simp [a1, a2, hu0.ne', hv0.ne']
  rw [← h4, ← Set.ncard_coe_finset]
  exact Set.ncard_le_ncard hsub hfin

/-- The exception: behind a single point mass there is a ring of images. -/
theorem C131_ring (z x0 y0 R : ℝ) (hR : R ≠ 0) : (fieldImages z [.point x0 y0 R] (x0, y0)).Infinite := by
  have hm : ∀ t : ℝ, (x0 + R * Real.cos t, y0 + R * Real.sin t) ∈ fieldImages z [.point x0 y0 R] (x0, y0) := by
    intro t
    have ht := Real.sin_sq_add_cos_sq t
    refine (field_image z _ _ _).2 ⟨?_, ?_⟩
    · simp only [List.mem_singleton, forall_eq, place, ne_eq, Option.some.injEq, Prod.mk.injEq, not_and]
      intro h1 h2
      have h3 : Real.cos t = 0 := by
        have : R * Real.cos t = 0 := by linarith
        simpa [hR] using this
      have h4 : Real.sin t = 0 := by
        have : R * Real.sin t = 0 := by linarith
        simpa [hR] using this
      rw [h3, h4] at ht
      norm_num at ht
    · have e : (x0 + R * Real.cos t - x0) * (x0 + R * Real.cos t - x0) +
          (-(y0 + R * Real.sin t) - -y0) * (-(y0 + R * Real.sin t) - -y0) = R ^ 2 := by
        linear_combination R ^ 2 * ht
      refine Complex.ext ?_ ?_ <;>
        simp only [List.map_cons, List.map_nil, List.sum_cons, List.sum_nil, add_zero, cdefl, Complex.sub_re,
          Complex.sub_im, Complex.div_re, Complex.div_im, Complex.normSq_apply, Complex.conj_re, Complex.conj_im,
          Complex.ofReal_re, Complex.ofReal_im, e] <;> field_simp <;> ring
  intro hfin
  have h1 : (Set.Icc (0 : ℝ) Real.pi).Finite := by
    refine Set.Finite.of_injOn (f := fun t => (x0 + R * Real.cos t, y0 + R * Real.sin t)) (fun t _ => hm t) ?_ hfin
    intro s hs t ht he
    have h2 : R * Real.cos s = R * Real.cos t := by
      have := congrArg Prod.fst he
      simp only at this
      linarith
    exact Real.injOn_cos hs ht (mul_left_cancel₀ hR h2)
  exact Set.Icc_infinite Real.pi_pos h1

/-- Three stars, a sheet and a shear: at most sixteen images of any source. -/
example (b : ℝ × ℝ) :
    (fieldImages (1 / 2) [.point 0 0 1, .sheet 0 0 (1 / 4), .point 1 0 1, .shear 0 0 (1 / 10) 0, .point 0 1 2] b).ncard ≤
      16 := by
  have hpl : starPlaces [.point 0 0 1, .sheet 0 0 (1 / 4), .point 1 0 1, .shear 0 0 (1 / 10) 0, .point 0 1 2] =
      {(0, 0), (1, 0), (0, 1)} := by
    ext c
    simp [mem_starPlaces, place, eq_comm]
  have := (C131_sheared (1 / 2)
    [.point 0 0 1, .sheet 0 0 (1 / 4), .point 1 0 1, .shear 0 0 (1 / 10) 0, .point 0 1 2] (by simp [Ok])
    (by rw [hpl]; simp) (by norm_num [kappa]) (by simp [gamma]) b).2
  refine this.trans ?_
  have h3 : (starPlaces [.point 0 0 1, .sheet 0 0 (1 / 4), .point 1 0 1, .shear 0 0 (1 / 10) 0, .point 0 1 2]).card ≤ 3 := by
    rw [hpl]
    exact Finset.card_le_three
  exact (Nat.pow_le_pow_left (Nat.succ_le_succ h3) 2).trans (by norm_num)

end Caustics

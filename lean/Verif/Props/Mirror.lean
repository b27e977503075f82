import Verif.Props.Covariance
import Verif.Props.MassSheetDegeneracy
import Verif.Props.FirstImageLenses
import Verif.Model.Light

/-!
C97: mirror images.  A lens and its mirror image (in the `x` axis) deflect mirrored rays to mirrored places;
with C51 this covers every isometry of the sky.  Also the rotations of C51 for shear and multipoles.
-/

open Real

namespace Caustics

/-- `l'` is the mirror image of `l`. -/
def Mirrored (l l' : LensFn ℝ) : Prop :=
  ∀ x y, l'.deflection x (-y) = ((l.deflection x y).1, -(l.deflection x y).2) ∧
    l'.convergence x (-y) = l.convergence x y ∧ l'.potential x (-y) = l.potential x y

theorem translateRotate_mirror (x y x0 y0 phi : ℝ) :
    translateRotate x (-y) x0 (-y0) (some (-phi))
      = ((translateRotate x y x0 y0 (some phi)).1, -(translateRotate x y x0 y0 (some phi)).2) := by
  simp only [translateRotate, cos_neg, sin_neg, Prod.mk.injEq]
  constructor <;> ring

theorem translateRotate_mirror_none (x y x0 y0 : ℝ) :
    translateRotate x (-y) x0 (-y0) none = ((translateRotate x y x0 y0 none).1, -(translateRotate x y x0 y0 none).2) := by
  simp only [translateRotate, Prod.mk.injEq, true_and]
  ring

theorem derotate_mirror (a b phi : ℝ) :
    derotate a (-b) (some (-phi)) = ((derotate a b (some phi)).1, -(derotate a b (some phi)).2) := by
  simp only [derotate, cos_neg, sin_neg, Prod.mk.injEq]
  constructor <;> ring

theorem cos_arctan2_mirror (v u : ℝ) : cos (arctan2 (-v) u) = cos (arctan2 v u) := by
  have e : (⟨u, -v⟩ : ℂ) = (starRingEnd ℂ) ⟨u, v⟩ := by apply Complex.ext <;> simp
  unfold arctan2
  rw [e, Complex.arg_conj]
  split_ifs with h
  · rw [h]
  · rw [cos_neg]

theorem sin_arctan2_mirror (v u : ℝ) : sin (arctan2 (-v) u) = -sin (arctan2 v u) := by
  have e : (⟨u, -v⟩ : ℂ) = (starRingEnd ℂ) ⟨u, v⟩ := by apply Complex.ext <;> simp
  unfold arctan2
  rw [e, Complex.arg_conj]
  split_ifs with h
  · rw [h]; simp
  · rw [sin_neg]

/-- The polar angle of the mirrored position is minus the polar angle, up to a full turn. -/
theorem arctan2_mirror (v u : ℝ) : arctan2 (-v) u = -arctan2 v u ∨ arctan2 (-v) u = -arctan2 v u + 2 * π := by
  have e : (⟨u, -v⟩ : ℂ) = (starRingEnd ℂ) ⟨u, v⟩ := by apply Complex.ext <;> simp
  unfold arctan2
  rw [e, Complex.arg_conj]
  split_ifs with h
  · right; rw [h]; ring
  · left; rfl

/-! ### What the mirror image does -/

/-- Rays, hence images. -/
theorem C97_raytrace {z : ℝ} {l l' : LensFn ℝ} (h : Mirrored l l') (x y : ℝ) :
    (onlyLens z l').raytrace x (-y) = (((onlyLens z l).raytrace x y).1, -((onlyLens z l).raytrace x y).2) := by
  simp only [ThinLensFn.raytrace, onlyLens, (h x y).1, Prod.mk.injEq, true_and]
  ring

/-- The images of the mirrored source are the mirrored images. -/
theorem C97_images {z : ℝ} {l l' : LensFn ℝ} (h : Mirrored l l') (b : ℝ × ℝ) :
    {p : ℝ × ℝ | (onlyLens z l').raytrace p.1 p.2 = (b.1, -b.2)}
      = (fun p : ℝ × ℝ => (p.1, -p.2)) '' {p : ℝ × ℝ | (onlyLens z l).raytrace p.1 p.2 = b} := by
  ext p
  simp only [Set.mem_image, Set.mem_ofPred_eq]
  constructor
  · intro hp
    have e := C97_raytrace (z := z) h p.1 (-p.2)
    rw [neg_neg, hp] at e
    refine ⟨(p.1, -p.2), ?_, by simp⟩
    simp only [Prod.mk.injEq, neg_inj] at e
    exact Prod.ext e.1.symm e.2.symm
  · rintro ⟨w, hw, rfl⟩
    simp only [C97_raytrace h, hw]

/-- The Jacobian changes the sign of its mixed entries; the magnification is the same. -/
theorem C97_magnification {z : ℝ} {l l' : LensFn ℝ} (h : Mirrored l l') {x y : ℝ} {M M' : M22 ℝ}
    (hM : HasJac (onlyLens z l).raytrace M.a00 M.a01 M.a10 M.a11 x y)
    (hM' : HasJac (onlyLens z l').raytrace M'.a00 M'.a01 M'.a10 M'.a11 x (-y)) :
    M' = ⟨M.a00, -M.a01, -M.a10, M.a11⟩ ∧ pixelMagnification M' = pixelMagnification M := by
  have hX : HasGrad (fun x _ : ℝ => x) 1 0 x y := HasGrad.fst x y
  have hY : HasGrad (fun _ y : ℝ => -y) 0 (-1) x y := (HasGrad.snd x y).neg.congr (by ring) rfl
  have h1 := HasGrad.subst hM'.1 hX hY
  have h2 := HasGrad.subst hM'.2 hX hY
  simp only [C97_raytrace h] at h1 h2
  obtain ⟨e00, e01⟩ := h1.unique hM.1
  obtain ⟨e10, e11⟩ := h2.unique hM.2.neg
  simp only [smul_eq_mul, zero_mul, one_mul, add_zero, zero_add] at e00 e01 e10 e11
  have e : M' = ⟨M.a00, -M.a01, -M.a10, M.a11⟩ := by
    cases M'
    simp only [M22.mk.injEq]
    simp only at e00 e01 e10 e11
    exact ⟨e00, by linarith, by linarith, by linarith⟩
  refine ⟨e, ?_⟩
  rw [e]
  simp only [pixelMagnification, neg_mul_neg]

/-- Delays are the same. -/
theorem C97_delay {z : ℝ} {l l' : LensFn ℝ} (h : Mirrored l l') (e : MPEnv ℝ) (zs : ℝ) (shapiro geometric : Bool) (x y : ℝ) :
    (onlyLens z l').timeDelay e zs shapiro geometric x (-y) = (onlyLens z l).timeDelay e zs shapiro geometric x y := by
  cases shapiro <;> cases geometric <;>
    simp only [ThinLensFn.timeDelay, onlyLens, (h x y).1, (h x y).2.2, if_true, Bool.false_eq_true, if_false, neg_sq]

/-- A plane of mirrored lenses is the mirrored plane. -/
theorem C97_plane (ls : List (LensFn ℝ × LensFn ℝ)) (h : ∀ l ∈ ls, Mirrored l.1 l.2) :
    Mirrored (singlePlane (ls.map Prod.fst)) (singlePlane (ls.map Prod.snd)) := by
  induction ls using List.reverseRecOn with
  | nil =>
    intro x y
    simp [singlePlane, singlePlaneDeflection, singlePlaneConvergence, singlePlanePotential]
  | append_singleton ls l ih =>
    intro x y
    obtain ⟨h1, h2, h3⟩ := ih (fun m hm => h m (by simp [hm])) x y
    obtain ⟨g1, g2, g3⟩ := h l (by simp) x y
    simp only [singlePlane, singlePlaneDeflection, singlePlaneConvergence, singlePlanePotential, List.map_append,
      List.map_cons, List.map_nil, List.foldl_append, List.foldl_cons, List.foldl_nil] at h1 h2 h3 ⊢
    rw [h1, h2, h3, g1, g2, g3]
    refine ⟨by ext <;> simp only; ring, rfl, rfl⟩

/-- Shear and sheet: the mirrored ray lands on the mirrored place, with the signs of the mirrored shear. -/
example : (onlyLens (1 / 2) ⟨shearDeflection 0 (-1) (1 / 10) (-(1 / 5)), shearConvergence, shearPotential 0 (-1) (1 / 10) (-(1 / 5))⟩).raytrace
    2 (-3) = (7 / 5, -(14 / 5)) := by
  simp only [ThinLensFn.raytrace, onlyLens, shearDeflection, translateRotate, Prod.mk.injEq]
  norm_num

example : (onlyLens (1 / 2) ⟨shearDeflection 0 1 (1 / 10) (1 / 5), shearConvergence, shearPotential 0 1 (1 / 10) (1 / 5)⟩).raytrace
    2 3 = (7 / 5, 14 / 5) := by
  simp only [ThinLensFn.raytrace, onlyLens, shearDeflection, translateRotate, Prod.mk.injEq]
  norm_num

/-! ### The mirror image of each lens -/

/-- Mirror the centre, negate the position angle and the second shear component. -/
theorem C97_mirrored (x0 y0 : ℝ) :
    (∀ Rein s, Mirrored ⟨sisDeflection x0 y0 Rein s, sisConvergence x0 y0 Rein s, sisPotential x0 y0 Rein s⟩
      ⟨sisDeflection x0 (-y0) Rein s, sisConvergence x0 (-y0) Rein s, sisPotential x0 (-y0) Rein s⟩) ∧
    (∀ q phi Rein s, Mirrored ⟨sieDeflection x0 y0 q phi Rein s, sieConvergence x0 y0 q phi Rein s, siePotential x0 y0 q phi Rein s⟩
      ⟨sieDeflection x0 (-y0) q (-phi) Rein s, sieConvergence x0 (-y0) q (-phi) Rein s, siePotential x0 (-y0) q (-phi) Rein s⟩) ∧
    (∀ kappa, Mirrored (sheetFn x0 y0 kappa) (sheetFn x0 (-y0) kappa)) ∧
    (∀ g1 g2, Mirrored ⟨shearDeflection x0 y0 g1 g2, shearConvergence, shearPotential x0 y0 g1 g2⟩
      ⟨shearDeflection x0 (-y0) g1 (-g2), shearConvergence, shearPotential x0 (-y0) g1 (-g2)⟩) := by
  have hd : ∀ q phi Rein s x y, sieDeflection x0 (-y0) q (-phi) Rein s x (-y)
      = ((sieDeflection x0 y0 q phi Rein s x y).1, -(sieDeflection x0 y0 q phi Rein s x y).2) := by
    intro q phi Rein s x y
    simp only [sieDeflection, translateRotate_mirror, neg_sq, mul_neg, neg_div, artanh_odd, derotate_mirror]
  refine ⟨fun Rein s x y => ?_, fun q phi Rein s x y => ⟨hd q phi Rein s x y, ?_, ?_⟩, fun kappa x y => ?_, fun g1 g2 x y => ?_⟩
  · simp only [sisDeflection, sisConvergence, sisPotential, translateRotate_mirror_none, neg_sq, mul_neg, neg_div, and_self]
  · simp only [sieConvergence, translateRotate_mirror, neg_sq]
  · have e := fun a b : ℝ => derotate_mirror a b (-phi)
    simp only [siePotential, hd, translateRotate_mirror, e, neg_sq, neg_mul_neg]
  · simp only [sheetFn, sheetDeflection, sheetConvergence, sheetPotential, translateRotate_mirror_none, neg_sq, neg_mul, and_self]
  · simp only [shearDeflection, shearConvergence, shearPotential, translateRotate_mirror_none, neg_sq, Prod.mk.injEq]
    refine ⟨⟨by ring, by ring⟩, trivial, by ring⟩

/-- Keeping `phi` instead of negating it is not the mirror image. -/
example : ¬Mirrored ⟨shearDeflection 0 0 0 1, shearConvergence, shearPotential 0 0 0 1⟩
    ⟨shearDeflection 0 0 0 1, shearConvergence, shearPotential 0 0 0 1⟩ := by
  intro h
  have h1 := (h 1 1).2.2
  simp only [shearPotential, translateRotate] at h1
  norm_num at h1

/-- An isothermal ellipsoid with external shear, and its mirror image, have mirrored images. -/
example (b : ℝ × ℝ) :
    let l : List (LensFn ℝ × LensFn ℝ) :=
      [(⟨sieDeflection 0 0.1 0.8 0.4 1 0, sieConvergence 0 0.1 0.8 0.4 1 0, siePotential 0 0.1 0.8 0.4 1 0⟩,
        ⟨sieDeflection 0 (-0.1) 0.8 (-0.4) 1 0, sieConvergence 0 (-0.1) 0.8 (-0.4) 1 0, siePotential 0 (-0.1) 0.8 (-0.4) 1 0⟩),
       (⟨shearDeflection 0 0 0.03 0.02, shearConvergence, shearPotential 0 0 0.03 0.02⟩,
        ⟨shearDeflection 0 (-0) 0.03 (-0.02), shearConvergence, shearPotential 0 (-0) 0.03 (-0.02)⟩)]
    {p : ℝ × ℝ | (onlyLens 0.5 (singlePlane (l.map Prod.snd))).raytrace p.1 p.2 = (b.1, -b.2)}
      = (fun p : ℝ × ℝ => (p.1, -p.2)) '' {p : ℝ × ℝ | (onlyLens 0.5 (singlePlane (l.map Prod.fst))).raytrace p.1 p.2 = b} := by
  intro l
  refine C97_images (C97_plane l fun m hm => ?_) b
  simp only [l, List.mem_cons, List.not_mem_nil, or_false] at hm
  rcases hm with rfl | rfl
  · exact (C97_mirrored 0 0.1).2.1 0.8 0.4 1 0
  · exact (C97_mirrored 0 0).2.2.2 0.03 0.02

/-- Point mass. -/
theorem C97_point (x0 y0 Rein s x y : ℝ) :
    pointDeflection x0 (-y0) Rein s x (-y) = ((pointDeflection x0 y0 Rein s x y).1, -(pointDeflection x0 y0 Rein s x y).2) ∧
    pointConvergence x0 (-y0) x (-y) = pointConvergence x0 y0 x y ∧
    pointPotential x0 (-y0) Rein s x (-y) = pointPotential x0 y0 Rein s x y := by
  simp only [pointDeflection, pointConvergence, pointPotential, translateRotate_mirror_none, neg_sq, neg_mul, neg_div, neg_eq_zero,
    and_self]

/-- Multipoles: negate the angles.  The orders are integers in the code. -/
theorem C97_multipole {n : ℕ} (x0 y0 : ℝ) (m : Fin n → ℤ) (a phim : Fin n → ℝ) :
    Mirrored ⟨multipoleDeflection x0 y0 (fun i => (m i : ℝ)) a phim, multipoleConvergence x0 y0 (fun i => (m i : ℝ)) a phim,
        multipolePotential x0 y0 (fun i => (m i : ℝ)) a phim⟩
      ⟨multipoleDeflection x0 (-y0) (fun i => (m i : ℝ)) a (fun i => -phim i),
        multipoleConvergence x0 (-y0) (fun i => (m i : ℝ)) a (fun i => -phim i),
        multipolePotential x0 (-y0) (fun i => (m i : ℝ)) a (fun i => -phim i)⟩ := by
  intro x y
  simp only [multipoleDeflection, multipoleConvergence, multipolePotential, translateRotate_mirror_none, neg_sq,
    cos_arctan2_mirror, sin_arctan2_mirror]
  generalize (translateRotate x y x0 y0 none).1 = u
  generalize (translateRotate x y x0 y0 none).2 = v
  have hc : ∀ i, cos (m i * (arctan2 (-v) u - -phim i)) = cos (m i * (arctan2 v u - phim i)) := by
    intro i
    rcases arctan2_mirror v u with h | h <;> rw [h]
    · rw [show (m i : ℝ) * (-arctan2 v u - -phim i) = -(m i * (arctan2 v u - phim i)) by ring, cos_neg]
    · rw [show (m i : ℝ) * (-arctan2 v u + 2 * π - -phim i) = -(m i * (arctan2 v u - phim i)) + m i * (2 * π) by ring,
        cos_add_int_mul_two_pi, cos_neg]
  have hs : ∀ i, sin (m i * (arctan2 (-v) u - -phim i)) = -sin (m i * (arctan2 v u - phim i)) := by
    intro i
    rcases arctan2_mirror v u with h | h <;> rw [h]
    · rw [show (m i : ℝ) * (-arctan2 v u - -phim i) = -(m i * (arctan2 v u - phim i)) by ring, sin_neg]
    · rw [show (m i : ℝ) * (-arctan2 v u + 2 * π - -phim i) = -(m i * (arctan2 v u - phim i)) + m i * (2 * π) by ring,
        sin_add_int_mul_two_pi, sin_neg]
  simp only [hc, hs]
  refine ⟨?_, trivial, trivial⟩
  simp only [Prod.mk.injEq, ← Finset.sum_neg_distrib]
  constructor <;> refine Finset.sum_congr rfl fun i _ => ?_ <;> ring

theorem pyGet_map {A B : Type*} (f : A → B) (l : List A) (i : ℤ) : pyGet (l.map f) i = (pyGet l i).map f := by
  unfold pyGet pyIdx
  by_cases h1 : 0 ≤ i ∧ i < l.length
  · rw [dif_pos (by simpa using h1), dif_pos h1]
    simp [Except.map]
  · rw [dif_neg (by simpa using h1), dif_neg h1]
    by_cases h2 : -(l.length : ℤ) ≤ i ∧ i < 0
    · rw [dif_pos (by simpa using h2), dif_pos h2]
      simp [Except.map]
    · rw [dif_neg (by simpa using h2), dif_neg h2]
      rfl

theorem conj_rOmega (z : ℂ) (t q : ℝ) (n_iter : ℕ) (chunk_size : Option ℕ) :
    rOmega ((starRingEnd ℂ) z) t q n_iter chunk_size = (rOmega z t q n_iter chunk_size).map (starRingEnd ℂ) := by
  have hloop : ∀ (l : List ℕ) (phi a b : ℂ),
      l.foldl (fun (s : ℂ × ℂ) i => ((eplFactor t i : ℂ) * (starRingEnd ℂ) phi * s.1, s.2 + (eplFactor t i : ℂ) * (starRingEnd ℂ) phi * s.1))
          ((starRingEnd ℂ) a, (starRingEnd ℂ) b)
        = ((starRingEnd ℂ) (l.foldl (fun (s : ℂ × ℂ) i => ((eplFactor t i : ℂ) * phi * s.1, s.2 + (eplFactor t i : ℂ) * phi * s.1)) (a, b)).1,
           (starRingEnd ℂ) (l.foldl (fun (s : ℂ × ℂ) i => ((eplFactor t i : ℂ) * phi * s.1, s.2 + (eplFactor t i : ℂ) * phi * s.1)) (a, b)).2) := by
    intro l phi
    induction l with
    | nil => intro a b; rfl
    | cons i l ih =>
      intro a b
      simp only [List.foldl_cons]
      rw [← ih]
      simp only [map_mul, map_add, Complex.conj_ofReal]
  have hcum : ∀ l : List ℂ, cumprod (l.map (starRingEnd ℂ)) = (cumprod l).map (starRingEnd ℂ) := by
    intro l
    have : ∀ (l : List ℂ) (a : ℂ), (l.map (starRingEnd ℂ)).scanl (· * ·) ((starRingEnd ℂ) a) = (l.scanl (· * ·) a).map (starRingEnd ℂ) := by
      intro l
      induction l with
      | nil => intro a; rfl
      | cons b l ih => intro a; simp only [List.map_cons, List.scanl_cons, ← ih, map_mul]
    have h1 := this l 1
    rw [map_one] at h1
    simp only [cumprod, h1, List.map_tail]
  have hsum : ∀ l : List ℂ, (l.map (starRingEnd ℂ)).sum = (starRingEnd ℂ) l.sum := fun l => (map_list_sum _ l).symm
  simp only [rOmega]
  have hphi : (starRingEnd ℂ) z / (starRingEnd ℂ) ((starRingEnd ℂ) z) * ((-((1 - q) / (1 + q)) : ℝ) : ℂ)
      = (starRingEnd ℂ) (z / (starRingEnd ℂ) z * ((-((1 - q) / (1 + q)) : ℝ) : ℂ)) := by
    rw [map_mul, map_div₀, Complex.conj_ofReal]
  rw [hphi]
  generalize z / (starRingEnd ℂ) z * ((-((1 - q) / (1 + q)) : ℝ) : ℂ) = phi
  generalize chunk_size.getD n_iter = chunk
  split_ifs
  · simp only [Except.map, rOmegaLoop, hloop]
  · rfl
  · set factor : List ℂ := ((List.range (n_iter - 1)).map (· + 1)).map fun i => (eplFactor t i : ℂ) with hfac
    have hreal : ∀ f ∈ factor, (starRingEnd ℂ) f = f := by
      intro f hf
      simp only [hfac, List.mem_map] at hf
      obtain ⟨i, -, rfl⟩ := hf
      exact Complex.conj_ofReal _
    have hrec : ∀ a b, ((factor.take a).drop b).map (· * (starRingEnd ℂ) phi)
        = (((factor.take a).drop b).map (· * phi)).map (starRingEnd ℂ) := by
      intro a b
      rw [List.map_map]
      refine List.map_congr_left fun f hf => ?_
      simp only [Function.comp, map_mul]
      rw [hreal f (List.mem_of_mem_take (List.mem_of_mem_drop hf))]
    let g : Option (List ℂ × ℂ) → Option (List ℂ × ℂ) := Option.map fun s => (s.1.map (starRingEnd ℂ), (starRingEnd ℂ) s.2)
    have hstep : ∀ s i, rOmegaChunk factor ((starRingEnd ℂ) phi) n_iter chunk (g s) i
        = (rOmegaChunk factor phi n_iter chunk s i).map g := by
      intro s i
      cases s with
      | none =>
        simp only [rOmegaChunk, g, Option.map_none, Except.map, Option.map_some, hrec, hcum, hsum]
      | some s =>
        simp only [rOmegaChunk, g, Option.map_some, hrec]
        rw [pyGet_map]
        cases pyGet s.1 (-1) with
        | error e => rfl
        | ok last =>
          simp only [Except.map, bind, Except.bind, Option.map_some]
          rw [← List.map_cons, hcum, ← List.map_tail, hsum, map_add]
    have hfold : ∀ (l : List ℕ) s, l.foldlM (rOmegaChunk factor ((starRingEnd ℂ) phi) n_iter chunk) (g s)
        = (l.foldlM (rOmegaChunk factor phi n_iter chunk) s).map g := by
      intro l
      induction l with
      | nil => intro s; rfl
      | cons i l ih =>
        intro s
        simp only [List.foldlM_cons, hstep]
        cases rOmegaChunk factor phi n_iter chunk s i with
        | error e => rfl
        | ok s' => exact ih s'
    have h0 := hfold (List.range (n_iter / chunk)) none
    change List.foldlM _ none _ = _ at h0
    rw [h0]
    cases List.foldlM (rOmegaChunk factor phi n_iter chunk) none (List.range (n_iter / chunk)) with
    | error e => rfl
    | ok s =>
      cases s with
      | none => rfl
      | some s => simp only [Except.map, bind, Except.bind, g, Option.map_some, map_mul, map_add, map_one]

/-- Elliptical power law, errors included. -/
theorem C97_epl (x0 y0 q phi Rein t s x y : ℝ) (n_iter : ℕ) (chunk_size : Option ℕ) :
    eplDeflection x0 (-y0) q (-phi) Rein t n_iter chunk_size x (-y)
      = (eplDeflection x0 y0 q phi Rein t n_iter chunk_size x y).map (fun a => (a.1, -a.2)) ∧
    eplPotential x0 (-y0) q (-phi) Rein t n_iter chunk_size x (-y) = eplPotential x0 y0 q phi Rein t n_iter chunk_size x y ∧
    eplConvergence x0 (-y0) q (-phi) Rein t s x (-y) = eplConvergence x0 y0 q phi Rein t s x y := by
  have hframe : ∀ u v, eplFrame q Rein t n_iter chunk_size u (-v)
      = (eplFrame q Rein t n_iter chunk_size u v).map (fun a => (a.1, -a.2)) := by
    intro u v
    have hz : (⟨q * u, -v⟩ : ℂ) = (starRingEnd ℂ) ⟨q * u, v⟩ := by apply Complex.ext <;> simp
    simp only [eplFrame, hz, conj_rOmega, bind, Except.bind]
    cases rOmega (⟨q * u, v⟩ : ℂ) t q n_iter chunk_size with
    | error e => rfl
    | ok ro =>
      simp only [Except.map, map_eq_zero, Complex.norm_conj]
      split_ifs with h
      · simp
      · simp only [Complex.re_ofReal_mul, Complex.im_ofReal_mul, Complex.conj_re, Complex.conj_im, mul_neg]
  have hd : eplDeflection x0 (-y0) q (-phi) Rein t n_iter chunk_size x (-y)
      = (eplDeflection x0 y0 q phi Rein t n_iter chunk_size x y).map (fun a => (a.1, -a.2)) := by
    simp only [eplDeflection, translateRotate_mirror, hframe]
    cases eplFrame q Rein t n_iter chunk_size (translateRotate x y x0 y0 (some phi)).1 (translateRotate x y x0 y0 (some phi)).2 with
    | error e => rfl
    | ok a => simp only [Except.map, bind, Except.bind, derotate_mirror]
  refine ⟨hd, ?_, ?_⟩
  · simp only [eplPotential, hd]
    have e := fun a b : ℝ => derotate_mirror a b (-phi)
    cases eplDeflection x0 y0 q phi Rein t n_iter chunk_size x y with
    | error e => rfl
    | ok a => simp only [Except.map, bind, Except.bind, translateRotate_mirror, e, neg_mul_neg]
  · simp only [eplConvergence, translateRotate_mirror, neg_sq]

/-- Halo lenses and the enclosed-mass lens. -/
theorem C97_halo (x y : ℝ) :
    (∀ L : NFW, ({ L with y0 := -L.y0 } : NFW).deflection x (-y) = ((L.deflection x y).1, -(L.deflection x y).2) ∧
      ({ L with y0 := -L.y0 } : NFW).convergence x (-y) = L.convergence x y ∧
      ({ L with y0 := -L.y0 } : NFW).potential x (-y) = L.potential x y) ∧
    (∀ L : TNFW, ({ L with y0 := -L.y0 } : TNFW).deflection x (-y) = ((L.deflection x y).1, -(L.deflection x y).2) ∧
      ({ L with y0 := -L.y0 } : TNFW).convergence x (-y) = L.convergence x y ∧
      ({ L with y0 := -L.y0 } : TNFW).potential x (-y) = L.potential x y) ∧
    (∀ L : PJaffe, ({ L with y0 := -L.y0 } : PJaffe).deflection x (-y) = ((L.deflection x y).1, -(L.deflection x y).2) ∧
      ({ L with y0 := -L.y0 } : PJaffe).convergence x (-y) = L.convergence x y ∧
      ({ L with y0 := -L.y0 } : PJaffe).potential x (-y) = L.potential x y) ∧
    (∀ (Gc2 x0 y0 q phi csd s : ℝ) (M : ℝ → ℝ), enclosedDeflection Gc2 x0 (-y0) q (-phi) M s x (-y)
        = ((enclosedDeflection Gc2 x0 y0 q phi M s x y).1, -(enclosedDeflection Gc2 x0 y0 q phi M s x y).2) ∧
      enclosedConvergence x0 (-y0) q (-phi) M csd s x (-y) = enclosedConvergence x0 y0 q phi M csd s x y) := by
  refine ⟨fun L => ?_, fun L => ?_, fun L => ?_, fun Gc2 x0 y0 q phi csd s M => ?_⟩
  · simp only [NFW.deflection, NFW.physicalDeflection, NFW.convergence, NFW.potential, NFW.rs, translateRotate_mirror_none, neg_sq,
      mul_neg, neg_div, and_self]
  · simp only [TNFW.deflection, TNFW.physicalDeflection, TNFW.convergence, TNFW.potential, translateRotate_mirror_none, neg_sq,
      cos_arctan2_mirror, sin_arctan2_mirror, mul_neg, and_self]
  · simp only [PJaffe.deflection, PJaffe.convergence, PJaffe.potential, translateRotate_mirror_none, neg_sq, mul_neg, neg_div,
      and_self]
  · simp only [enclosedDeflection, enclosedConvergence, translateRotate_mirror, neg_sq, mul_neg, neg_mul, neg_div, derotate_mirror,
      and_self]

/-- Light. -/
theorem C97_light (x y x0 y0 : ℝ) :
    (∀ lenstronomy s q phi n Re Ie, Sersic.brightness lenstronomy s x0 (-y0) q (-phi) n Re Ie x (-y)
      = Sersic.brightness lenstronomy s x0 y0 q phi n Re Ie x y) ∧
    (∀ thetaS Ie gamma, brightnessStar x0 (-y0) thetaS Ie x (-y) gamma = brightnessStar x0 y0 thetaS Ie x y gamma) := by
  constructor
  · intro lenstronomy s q phi n Re Ie
    simp only [Sersic.brightness, brightnessSersic, translateRotate_mirror, toElliptical, neg_div, neg_sq]
  · intro thetaS Ie gamma
    simp only [brightnessStar, translateRotate_mirror_none, neg_sq]

/-! ### Rotations of shear and multipoles (C51) -/

/-- Rotating a shear by `θ` rotates its two components by `2 θ`. -/
theorem C51_rotation_shear (x0 y0 g1 g2 x y th : ℝ) :
    let p := rotAbout x0 y0 th x y
    let g := rot (2 * th) (g1, g2)
    shearDeflection x0 y0 g.1 g.2 p.1 p.2 = rot th (shearDeflection x0 y0 g1 g2 x y) ∧
    shearPotential x0 y0 g.1 g.2 p.1 p.2 = shearPotential x0 y0 g1 g2 x y := by
  intro p g
  have hs := sin_sq_add_cos_sq th
  simp only [shearDeflection, shearPotential, p, g, translateRotate_rot_none]
  generalize (translateRotate x y x0 y0 none) = w
  obtain ⟨u, v⟩ := w
  have hC : cos (2 * th) * cos th + sin (2 * th) * sin th = cos th := by rw [← cos_sub]; congr 1; ring
  have hS : sin (2 * th) * cos th - cos (2 * th) * sin th = sin th := by rw [← sin_sub]; congr 1; ring
  have e1 : (g1 * cos (2 * th) - g2 * sin (2 * th)) * (u * cos th - v * sin th)
      + (g1 * sin (2 * th) + g2 * cos (2 * th)) * (u * sin th + v * cos th)
      = (g1 * u + g2 * v) * cos th - (g2 * u - g1 * v) * sin th := by
    linear_combination (g1 * u + g2 * v) * hC + (g1 * v - g2 * u) * hS
  have e2 : (g1 * sin (2 * th) + g2 * cos (2 * th)) * (u * cos th - v * sin th)
      - (g1 * cos (2 * th) - g2 * sin (2 * th)) * (u * sin th + v * cos th)
      = (g1 * u + g2 * v) * sin th + (g2 * u - g1 * v) * cos th := by
    linear_combination (g2 * u - g1 * v) * hC + (g1 * u + g2 * v) * hS
  simp only [rot, Prod.mk.injEq]
  refine ⟨⟨e1, e2⟩, ?_⟩
  linear_combination 0.5 * (u * cos th - v * sin th) * e1 + 0.5 * (u * sin th + v * cos th) * e2
    + 0.5 * (u * (g1 * u + g2 * v) + v * (g2 * u - g1 * v)) * hs

/-- A quarter turn changes the sign of the shear. -/
example (x y : ℝ) : shearDeflection 0 0 (-1) 0 (-y) x = (y, x) := by
  simp [shearDeflection, translateRotate]

theorem arctan2_rot (th u v : ℝ) (h : ¬(u = 0 ∧ v = 0)) :
    ∃ k : ℤ, arctan2 (rot th (u, v)).2 (rot th (u, v)).1 = arctan2 v u + th + k * (2 * π) := by
  have e : (⟨(rot th (u, v)).1, (rot th (u, v)).2⟩ : ℂ) = Complex.exp (th * Complex.I) * ⟨u, v⟩ := by
    apply Complex.ext <;> simp [rot, Complex.exp_ofReal_mul_I_re, Complex.exp_ofReal_mul_I_im] <;> ring
  have hz : (⟨u, v⟩ : ℂ) ≠ 0 := by
    intro hz
    exact h ⟨congrArg Complex.re hz, congrArg Complex.im hz⟩
  have ha : ((Complex.arg (Complex.exp (th * Complex.I) * ⟨u, v⟩) : ℝ) : Real.Angle) = ((Complex.arg ⟨u, v⟩ + th : ℝ) : Real.Angle) := by
    rw [Complex.arg_mul_coe_angle (Complex.exp_ne_zero _) hz, Real.Angle.coe_add, add_comm, ← Complex.cos_add_sin_I,
      ← Complex.ofReal_cos, ← Complex.ofReal_sin, ← Real.Angle.cos_coe, ← Real.Angle.sin_coe, Complex.arg_cos_add_sin_mul_I_coe_angle]
  obtain ⟨k, hk⟩ := Real.Angle.angle_eq_iff_two_pi_dvd_sub.1 ha
  refine ⟨k, ?_⟩
  simp only [arctan2, e]
  linarith

/-- Rotating a multipole adds `θ` to its angles, away from its centre. -/
theorem C51_rotation_multipole {n : ℕ} (x0 y0 : ℝ) (m : Fin n → ℤ) (a phim : Fin n → ℝ) (x y th : ℝ) (hxy : ¬(x = x0 ∧ y = y0)) :
    let p := rotAbout x0 y0 th x y
    multipoleDeflection x0 y0 (fun i => (m i : ℝ)) a (fun i => phim i + th) p.1 p.2
      = rot th (multipoleDeflection x0 y0 (fun i => (m i : ℝ)) a phim x y) ∧
    multipolePotential x0 y0 (fun i => (m i : ℝ)) a (fun i => phim i + th) p.1 p.2
      = multipolePotential x0 y0 (fun i => (m i : ℝ)) a phim x y ∧
    multipoleConvergence x0 y0 (fun i => (m i : ℝ)) a (fun i => phim i + th) p.1 p.2
      = multipoleConvergence x0 y0 (fun i => (m i : ℝ)) a phim x y := by
  intro p
  simp only [multipoleDeflection, multipoleConvergence, multipolePotential, p, translateRotate_rot_none, rot_sq]
  have hw : ¬((translateRotate x y x0 y0 none).1 = 0 ∧ (translateRotate x y x0 y0 none).2 = 0) := by
    simp only [translateRotate, sub_eq_zero]
    exact hxy
  obtain ⟨k, hk⟩ := arctan2_rot th _ _ hw
  simp only [Prod.mk.eta] at hk
  rw [hk]
  generalize arctan2 (translateRotate x y x0 y0 none).2 (translateRotate x y x0 y0 none).1 = phi
  have h0 : ∀ i, (m i : ℝ) * (phi + th + k * (2 * π) - (phim i + th)) = m i * (phi - phim i) + ((m i * k : ℤ) : ℝ) * (2 * π) := by
    intro i
    push_cast
    ring
  simp only [h0, cos_add_int_mul_two_pi, sin_add_int_mul_two_pi, and_self, and_true]
  simp only [rot, Prod.mk.injEq, Finset.sum_mul, ← Finset.sum_sub_distrib, ← Finset.sum_add_distrib, cos_add, sin_add]
  constructor <;> refine Finset.sum_congr rfl fun i _ => ?_ <;> ring

end Caustics

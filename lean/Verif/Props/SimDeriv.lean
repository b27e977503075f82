import Verif.Lemmas.SimDeriv
import Verif.Props.PixLight
import Mathlib.Analysis.Calculus.FDeriv.Comp
import Mathlib.Analysis.Calculus.FDeriv.Pow
import Mathlib.Analysis.SpecialFunctions.ExpDeriv

/-! C129: derivatives of simulated images and fits of the light of a source. -/

namespace Caustics

variable {lib : SimLib} {E : Type*} [NormedAddCommGroup E] [NormedSpace ℝ E]

/-- A scene that is just a brightness on the sky, seen without a lens. -/
def SimScene.ofSky (sky : ℝ → ℝ → ℝ) (psf : Img) (psfConvolve : Bool) : SimScene :=
  { raytrace := fun a b => (a, b), source := some sky, lensLight := none, psf := psf, x0 := 0, y0 := 0, lensSource := false,
    psfConvolve := psfConvolve }

/-- The positions a simulator evaluates the light at, relative to the centre of the field. -/
def Sim.positions (x : Sim) : Set (ℝ × ℝ) := {P | ∃ a b, P ∈ (x.g.grid.getD a []).getD b []}

/-- The image is a fixed linear response to the light arriving at the positions of the grid: only settings and PSF enter
the weights, in every PSF mode. -/
theorem C129_response {cfg : SimCfg} {x : Sim} (h : Sim.new lib cfg = .ok x) (psf : Img) (pc : Bool) :
    ∃ W : ℕ → ℕ → ℕ → ℕ → ℝ, ∀ c : SimScene, c.psf = psf → c.psfConvolve = pc → ∀ i j,
      (x.call c).at' i j = ∑ a ∈ Finset.range x.g.nPix.2, ∑ b ∈ Finset.range x.g.nPix.1,
        W i j a b * quadIntegrate (((x.g.grid.getD a []).getD b []).map fun P => c.skyAt (P.1 + c.x0) (P.2 + c.y0)) x.g.weights := by
  refine ⟨fun i j a b => x.response pc psf i j a b, ?_⟩
  rintro c rfl rfl i j
  rw [call_response h, Finset.sum_product]
  refine Finset.sum_congr rfl fun a _ => Finset.sum_congr rfl fun b _ => ?_
  rw [mul_comm]
  rfl

/-- The derivative of a pixel with respect to any parameters of the scene is the pixel of the image of the derivative of
the sky. -/
theorem C129_derivative {cfg : SimCfg} {x : Sim} (h : Sim.new lib cfg = .ok x) (psf : Img) (pc : Bool) (c : E → SimScene)
    (hpsf : ∀ θ, (c θ).psf = psf) (hpc : ∀ θ, (c θ).psfConvolve = pc) (θ0 : E) (sky' : ℝ → ℝ → E →L[ℝ] ℝ)
    (hsky : ∀ P ∈ x.positions,
      HasFDerivAt (fun θ => (c θ).skyAt (P.1 + (c θ).x0) (P.2 + (c θ).y0)) (sky' P.1 P.2) θ0) (i j : ℕ) :
    ∃ D : E →L[ℝ] ℝ, HasFDerivAt (fun θ => (x.call (c θ)).at' i j) D θ0 ∧
      ∀ v, D v = (x.call (.ofSky (fun X Y => sky' X Y v) psf pc)).at' i j := by
  have hq : ∀ s : ℕ × ℕ, ∃ D : E →L[ℝ] ℝ,
      HasFDerivAt (fun θ => (x.g.sample (c θ).skyAt (c θ).x0 (c θ).y0).at' s.1 s.2) D θ0 ∧
      ∀ v, D v = (x.g.sample (fun X Y => sky' X Y v) 0 0).at' s.1 s.2 := by
    intro s
    obtain ⟨D, hD, hv⟩ := hasFDerivAt_quadIntegrate ((x.g.grid.getD s.1 []).getD s.2 []) x.g.weights
      (fun θ P => (c θ).skyAt (P.1 + (c θ).x0) (P.2 + (c θ).y0)) (fun P => sky' P.1 P.2) fun P hP => hsky P ⟨s.1, s.2, hP⟩
    refine ⟨D, hD, fun v => ?_⟩
    rw [hv]
    simp [SimGrid.sample]
  choose D hD hv using hq
  refine ⟨∑ s ∈ Finset.range x.g.nPix.2 ×ˢ Finset.range x.g.nPix.1, x.response pc psf i j s.1 s.2 • D s, ?_, fun v => ?_⟩
  · have e : (fun θ => (x.call (c θ)).at' i j) = fun θ => ∑ s ∈ Finset.range x.g.nPix.2 ×ˢ Finset.range x.g.nPix.1,
        (x.g.sample (c θ).skyAt (c θ).x0 (c θ).y0).at' s.1 s.2 * x.response pc psf i j s.1 s.2 := by
      funext θ
      rw [call_response h, hpsf, hpc]
    rw [e]
    exact HasFDerivAt.fun_sum fun s _ => (hD s).mul_const _
  · rw [call_response h, sum_apply]
    refine Finset.sum_congr rfl fun s _ => ?_
    rw [smul_apply, hv, smul_eq_mul, mul_comm]
    have e : (SimScene.ofSky (fun X Y => sky' X Y v) psf pc).skyAt = fun X Y => sky' X Y v := by
      funext X Y
      simp [SimScene.ofSky, SimScene.skyAt]
    rw [e]
    rfl

/-- Lens parameters: the derivative of the image is minus the image of the gradient of the source, at the traced
position, along the derivative of the deflection. -/
theorem C129_lens {cfg : SimCfg} {x : Sim} (h : Sim.new lib cfg = .ok x) (c : SimScene) (f : ℝ → ℝ → ℝ) (hsrc : c.source = some f)
    (hon : c.sourceLight = true) (hls : c.lensSource = true) (alpha : E → ℝ → ℝ → ℝ × ℝ) (θ0 : E)
    (alpha' : ℝ → ℝ → E →L[ℝ] ℝ × ℝ) (f' : ℝ × ℝ → ℝ × ℝ →L[ℝ] ℝ)
    (hal : ∀ P ∈ x.positions, HasFDerivAt (fun θ => alpha θ (P.1 + c.x0) (P.2 + c.y0)) (alpha' (P.1 + c.x0) (P.2 + c.y0)) θ0)
    (hf : ∀ P ∈ x.positions, HasFDerivAt (fun q : ℝ × ℝ => f q.1 q.2)
      (f' ((P.1 + c.x0, P.2 + c.y0) - alpha θ0 (P.1 + c.x0) (P.2 + c.y0)))
      ((P.1 + c.x0, P.2 + c.y0) - alpha θ0 (P.1 + c.x0) (P.2 + c.y0))) (i j : ℕ) :
    ∃ D : E →L[ℝ] ℝ,
      HasFDerivAt (fun θ => (x.call { c with raytrace := fun a b => (a, b) - alpha θ a b }).at' i j) D θ0 ∧
      ∀ v, D v = -(x.call { c with
        source := some fun X Y => f' ((X, Y) - alpha θ0 X Y) (alpha' X Y v), lensSource := false, lensLight := none }).at' i j := by
  obtain ⟨D, hD, hv⟩ := C129_derivative h c.psf c.psfConvolve
    (fun θ => { c with raytrace := fun a b => (a, b) - alpha θ a b }) (fun _ => rfl) (fun _ => rfl) θ0
    (fun X Y => -((f' ((X + c.x0, Y + c.y0) - alpha θ0 (X + c.x0) (Y + c.y0))).comp (alpha' (X + c.x0) (Y + c.y0))))
    (by
      intro P hP
      have h1 := (hal P hP).const_sub ((P.1 + c.x0, P.2 + c.y0) : ℝ × ℝ)
      have h2 := HasFDerivAt.comp θ0 (hf P hP) h1
      rw [ContinuousLinearMap.comp_neg] at h2
      simp only [SimScene.skyAt, hsrc, hon, hls, if_true]
      exact h2.add_const _) i j
  refine ⟨D, hD, fun v => ?_⟩
  rw [hv]
  have h1 := C42_linear_source x (.ofSky (fun _ _ => 0) c.psf c.psfConvolve)
    (fun X Y => f' ((X + c.x0, Y + c.y0) - alpha θ0 (X + c.x0) (Y + c.y0)) (alpha' (X + c.x0) (Y + c.y0) v)) (fun _ _ => 0) (-1) 0
  have h2 : x.scene { c with
      source := some fun X Y => f' ((X, Y) - alpha θ0 X Y) (alpha' X Y v), lensSource := false, lensLight := none } =
      x.scene (.ofSky (fun X Y => f' ((X + c.x0, Y + c.y0) - alpha θ0 (X + c.x0) (Y + c.y0)) (alpha' (X + c.x0) (Y + c.y0) v))
        c.psf c.psfConvolve) := by
    simp [Sim.scene, hon, SimScene.ofSky, SimGrid.sample]
  have h3 := congrArg (fun I : Img => I.at' i j) h1
  simp only [Img.comb, zero_mul, add_zero, neg_one_mul] at h3
  unfold Sim.call at h3 ⊢
  rw [h2]
  exact h3

/-- The usual misfit: its gradient is twice the weighted residuals times the derivatives of the pixels. -/
theorem C129_chi2 {cfg : SimCfg} {x : Sim} (h : Sim.new lib cfg = .ok x) (psf : Img) (pc : Bool) (c : E → SimScene)
    (hpsf : ∀ θ, (c θ).psf = psf) (hpc : ∀ θ, (c θ).psfConvolve = pc) (θ0 : E) (sky' : ℝ → ℝ → E →L[ℝ] ℝ)
    (hsky : ∀ P ∈ x.positions,
      HasFDerivAt (fun θ => (c θ).skyAt (P.1 + (c θ).x0) (P.2 + (c θ).y0)) (sky' P.1 P.2) θ0)
    (S : Finset (ℕ × ℕ)) (ρ d : ℕ × ℕ → ℝ) :
    ∃ G : E →L[ℝ] ℝ, HasFDerivAt (fun θ => ∑ s ∈ S, ρ s * ((x.call (c θ)).at' s.1 s.2 - d s) ^ 2) G θ0 ∧
      ∀ v, G v = (2 : ℝ) * ∑ s ∈ S, ρ s * ((x.call (c θ0)).at' s.1 s.2 - d s) *
        (x.call (.ofSky (fun X Y => sky' X Y v) psf pc)).at' s.1 s.2 := by
  have := fun s : ℕ × ℕ => C129_derivative h psf pc c hpsf hpc θ0 sky' hsky s.1 s.2
  choose D hD hv using this
  refine ⟨∑ s ∈ S, (ρ s * (2 * ((x.call (c θ0)).at' s.1 s.2 - d s))) • D s, ?_, fun v => ?_⟩
  · refine HasFDerivAt.fun_sum fun s _ => ?_
    have := (((hD s).sub_const (d s)).pow 2).const_mul (ρ s)
    refine this.congr_fderiv ?_
    ext v
    simp
    ring
  · rw [sum_apply, Finset.mul_sum]
    refine Finset.sum_congr rfl fun s _ => ?_
    rw [smul_apply, hv, smul_eq_mul]
    ring

/-! ### The PSF -/

/-- A pixel is the average of the pixels seen with each element of the PSF alone, in every PSF mode. -/
theorem C129_psf (x : Sim) (c : SimScene) (hon : c.psfConvolve = true) (h11 : ¬(c.psf.h = 1 ∧ c.psf.w = 1))
    (hs : c.psf.sum ≠ 0) (i j : ℕ) :
    (x.call c).at' i j = (∑ s ∈ Finset.range c.psf.h ×ˢ Finset.range c.psf.w,
      c.psf.at' s.1 s.2 * (x.call { c with psf := .unit c.psf.h c.psf.w s.1 s.2 }).at' i j) / c.psf.sum := by
  unfold Sim.call
  rw [hon]
  exact finish_psf x c.psf (x.scene c) h11 hs i j

/-- The derivative with respect to parameters of the PSF. -/
theorem C129_psf_derivative (x : Sim) (c : SimScene) (hon : c.psfConvolve = true) (h w : ℕ) (h11 : ¬(h = 1 ∧ w = 1))
    (psf : E → ℕ → ℕ → ℝ) (θ0 : E) (psf' : ℕ → ℕ → E →L[ℝ] ℝ)
    (hd : ∀ m n, m < h → n < w → HasFDerivAt (fun θ => psf θ m n) (psf' m n) θ0) (hs : Img.sum ⟨h, w, psf θ0⟩ ≠ 0) (i j : ℕ) :
    ∃ D : E →L[ℝ] ℝ, HasFDerivAt (fun θ => (x.call { c with psf := ⟨h, w, psf θ⟩ }).at' i j) D θ0 ∧
      ∀ v, D v = (∑ s ∈ Finset.range h ×ˢ Finset.range w, psf' s.1 s.2 v *
        ((x.call { c with psf := .unit h w s.1 s.2 }).at' i j - (x.call { c with psf := ⟨h, w, psf θ0⟩ }).at' i j)) /
          Img.sum ⟨h, w, psf θ0⟩ := by
  set S := Finset.range h ×ˢ Finset.range w with hS
  set P : ℕ × ℕ → ℝ := fun s => (x.call { c with psf := .unit h w s.1 s.2 }).at' i j with hP
  have hmem : ∀ s ∈ S, s.1 < h ∧ s.2 < w := by
    intro s hs
    simpa [hS] using hs
  have hsum : ∀ θ, Img.sum ⟨h, w, psf θ⟩ = ∑ s ∈ S, psf θ s.1 s.2 := by
    intro θ
    rw [hS, Finset.sum_product]
    rfl
  have hN : HasFDerivAt (fun θ => ∑ s ∈ S, psf θ s.1 s.2 * P s) (∑ s ∈ S, P s • psf' s.1 s.2) θ0 :=
    HasFDerivAt.fun_sum fun s hs => (hd _ _ (hmem s hs).1 (hmem s hs).2).mul_const _
  have hQ : HasFDerivAt (fun θ => ∑ s ∈ S, psf θ s.1 s.2) (∑ s ∈ S, psf' s.1 s.2) θ0 :=
    HasFDerivAt.fun_sum fun s hs => hd _ _ (hmem s hs).1 (hmem s hs).2
  rw [hsum] at hs
  have hpix : ∀ θ, ∑ s ∈ S, psf θ s.1 s.2 ≠ 0 →
      (x.call { c with psf := ⟨h, w, psf θ⟩ }).at' i j = (∑ s ∈ S, psf θ s.1 s.2 * P s) / ∑ s ∈ S, psf θ s.1 s.2 := by
    intro θ h0
    have := C129_psf x { c with psf := ⟨h, w, psf θ⟩ } hon h11 (by rw [hsum]; exact h0) i j
    rw [hsum] at this
    exact this
  have hev : (fun θ => (x.call { c with psf := ⟨h, w, psf θ⟩ }).at' i j) =ᶠ[nhds θ0]
      fun θ => (∑ s ∈ S, psf θ s.1 s.2 * P s) / ∑ s ∈ S, psf θ s.1 s.2 :=
    (hQ.continuousAt.eventually_ne hs).mono fun θ hθ => hpix θ hθ
  have hdiv := hN.mul ((hasDerivAt_inv hs).comp_hasFDerivAt θ0 hQ)
  refine ⟨_, hdiv.congr_of_eventuallyEq hev, fun v => ?_⟩
  rw [hsum, hpix θ0 hs]
  have e : ∑ s ∈ S, psf' s.1 s.2 v * (P s - (∑ s ∈ S, psf θ0 s.1 s.2 * P s) / ∑ s ∈ S, psf θ0 s.1 s.2) =
      (∑ s ∈ S, P s * psf' s.1 s.2 v) - (∑ s ∈ S, psf' s.1 s.2 v) * ((∑ s ∈ S, psf θ0 s.1 s.2 * P s) / ∑ s ∈ S, psf θ0 s.1 s.2) := by
    rw [Finset.sum_mul, ← Finset.sum_sub_distrib]
    exact Finset.sum_congr rfl fun s _ => by ring
  rw [e]
  simp [sum_apply]
  field_simp
  ring

/-! ### Linear fits -/

/-- The best weights of any number of light components behind a fixed lens are those for which the residuals are
orthogonal to the image of every component. -/
theorem C129_fit {ι : Type*} [Fintype ι] (x : Sim) (c : SimScene) (f : ι → ℝ → ℝ → ℝ) (S : Finset (ℕ × ℕ)) (ρ d : ℕ × ℕ → ℝ)
    (hρ : ∀ s ∈ S, 0 ≤ ρ s) (w : ι → ℝ) :
    let pix : (ι → ℝ) → ℕ × ℕ → ℝ := fun w s => (x.call { c with source := some fun X Y => ∑ k, w k * f k X Y }).at' s.1 s.2
    let chi2 : (ι → ℝ) → ℝ := fun w => ∑ s ∈ S, ρ s * (pix w s - d s) ^ 2
    (∀ w', chi2 w ≤ chi2 w') ↔ ∀ k, ∑ s ∈ S, ρ s * (pix w s - d s) *
      (x.call { c with source := some (f k), lensLight := none }).at' s.1 s.2 = 0 := by
  classical
  intro pix chi2
  set r : ι → ℕ × ℕ → ℝ := fun k s => (x.call { c with source := some (f k), lensLight := none }).at' s.1 s.2 with hr
  have hsrc : ∀ (T : Finset ι) (w : ι → ℝ) (s : ℕ × ℕ),
      (x.call { c with source := some fun X Y => ∑ k ∈ T, w k * f k X Y, lensLight := none }).at' s.1 s.2 = ∑ k ∈ T, w k * r k s := by
    intro T w s
    induction T using Finset.induction_on with
    | empty =>
      have := congrArg (fun I : Img => I.at' s.1 s.2) (C42_linear_source x c (fun _ _ => 0) (fun _ _ => 0) 0 0)
      simpa [Img.comb] using this
    | insert k T hk ih =>
      have := congrArg (fun I : Img => I.at' s.1 s.2) (C42_linear_source x c (f k) (fun X Y => ∑ k ∈ T, w k * f k X Y) (w k) 1)
      simp only [Img.comb, one_mul] at this
      simp only [Finset.sum_insert hk]
      rw [this, ih]
  have hpix : ∀ w s, pix w s = ∑ k, w k * r k s + (x.call { c with source := none }).at' s.1 s.2 := by
    intro w s
    have := congrArg (fun I : Img => I.at' s.1 s.2) (C42_superposition x { c with source := some fun X Y => ∑ k, w k * f k X Y })
    simp only [Img.comb, one_mul] at this
    rw [← hsrc Finset.univ w s]
    exact this
  have hdiff : ∀ w' s, pix w' s = pix w s + ∑ k, (w' k - w k) * r k s := by
    intro w' s
    rw [hpix, hpix]
    simp only [sub_mul, Finset.sum_sub_distrib]
    ring
  have hchi : ∀ w', chi2 w' = chi2 w + 2 * (∑ k, (w' k - w k) * ∑ s ∈ S, ρ s * (pix w s - d s) * r k s) +
      ∑ s ∈ S, ρ s * (∑ k, (w' k - w k) * r k s) ^ 2 := by
    intro w'
    have e : ∑ k, (w' k - w k) * ∑ s ∈ S, ρ s * (pix w s - d s) * r k s =
        ∑ s ∈ S, ρ s * (pix w s - d s) * ∑ k, (w' k - w k) * r k s := by
      simp only [Finset.mul_sum]
      rw [Finset.sum_comm]
      exact Finset.sum_congr rfl fun s _ => Finset.sum_congr rfl fun k _ => by ring
    rw [e, Finset.mul_sum]
    simp only [chi2]
    rw [← Finset.sum_add_distrib, ← Finset.sum_add_distrib]
    refine Finset.sum_congr rfl fun s _ => ?_
    rw [hdiff w' s]
    ring
  constructor
  · intro hmin k
    set G := ∑ s ∈ S, ρ s * (pix w s - d s) * r k s with hG
    set Q := ∑ s ∈ S, ρ s * r k s ^ 2 with hQ
    have hstep : ∀ t : ℝ, 0 ≤ 2 * (t * G) + t ^ 2 * Q := by
      intro t
      have := hmin (Function.update w k (w k + t))
      rw [hchi (Function.update w k (w k + t))] at this
      have e1 : ∀ g : ι → ℝ, ∑ k', (Function.update w k (w k + t) k' - w k') * g k' = t * g k := by
        intro g
        rw [Finset.sum_eq_single k]
        · simp
        · intro b _ hb; simp [Function.update_of_ne hb]
        · simp
      rw [e1] at this
      simp only [e1] at this
      have e2 : ∑ s ∈ S, ρ s * (t * r k s) ^ 2 = t ^ 2 * Q := by
        rw [hQ, Finset.mul_sum]
        exact Finset.sum_congr rfl fun s _ => by ring
      rw [e2] at this
      linarith
    have hQ0 : 0 ≤ Q := Finset.sum_nonneg fun s hs => mul_nonneg (hρ s hs) (sq_nonneg _)
    by_contra hne
    have hG2 : 0 < G ^ 2 := by positivity
    have h1 := hstep (-G / (Q + 1))
    have h2 : 2 * (-G / (Q + 1) * G) + (-G / (Q + 1)) ^ 2 * Q = -(G ^ 2 * (Q + 2)) / (Q + 1) ^ 2 := by
      field_simp
      ring
    rw [h2] at h1
    have h3 : -(G ^ 2 * (Q + 2)) / (Q + 1) ^ 2 < 0 := div_neg_of_neg_of_pos (by nlinarith) (by positivity)
    linarith
  · intro hG w'
    rw [hchi w']
    have h1 : ∑ k, (w' k - w k) * ∑ s ∈ S, ρ s * (pix w s - d s) * r k s = 0 :=
      Finset.sum_eq_zero fun k _ => by rw [hG k, mul_zero]
    have h2 : 0 ≤ ∑ s ∈ S, ρ s * (∑ k, (w' k - w k) * r k s) ^ 2 :=
      Finset.sum_nonneg fun s hs => mul_nonneg (hρ s hs) (sq_nonneg _)
    rw [h1]
    linarith

/-- A `Pixelated` source: the image is the sum of its pixel values times the images of the single pixels. -/
theorem C129_pixelated (x : Sim) (c : SimScene) {h w : ℕ} (hh : 1 ≤ h) (hw : 1 ≤ w) (x0 y0 ps scale : ℝ) (padding : String)
    (hp : Pad2 padding) (B : (Fin h → Fin w → ℝ) → ℝ → ℝ → ℝ)
    (hB : ∀ im X Y, pixelatedBrightness (.d2 im) x0 y0 ps scale X Y padding = .ok (B im X Y)) (im : Fin h → Fin w → ℝ) (i j : ℕ) :
    (x.call { c with source := some (B im), lensLight := none }).at' i j = ∑ k, ∑ l, im k l *
      (x.call { c with source := some (B fun k' l' => if k' = k ∧ l' = l then 1 else 0), lensLight := none }).at' i j := by
  classical
  have hlin : ∀ (f g : Fin h → Fin w → ℝ) (t X Y : ℝ), B (fun k l => f k l + t * g k l) X Y = B f X Y + t * B g X Y := by
    intro f g t X Y
    obtain ⟨a, b, ha, hb, hab⟩ := C65_linear hh hw f g x0 y0 ps scale X Y t padding hp
    rw [hB] at ha hb hab
    cases ha; cases hb
    exact Except.ok.inj hab
  have hzero : ∀ X Y, B (fun _ _ => 0) X Y = 0 := by
    intro X Y
    have := hlin (fun _ _ => 0) (fun _ _ => 0) 1 X Y
    simp only [mul_zero, add_zero, one_mul] at this
    linarith
  have hsum : ∀ (T : Finset (Fin h × Fin w)) (X Y : ℝ),
      B (fun k l => ∑ s ∈ T, im s.1 s.2 * if k = s.1 ∧ l = s.2 then 1 else 0) X Y =
        ∑ s ∈ T, im s.1 s.2 * B (fun k l => if k = s.1 ∧ l = s.2 then 1 else 0) X Y := by
    intro T X Y
    induction T using Finset.induction_on with
    | empty => simpa using hzero X Y
    | insert s T hs ih =>
      simp only [Finset.sum_insert hs]
      have := hlin (fun k l => ∑ s ∈ T, im s.1 s.2 * if k = s.1 ∧ l = s.2 then 1 else 0)
        (fun k l => if k = s.1 ∧ l = s.2 then 1 else 0) (im s.1 s.2) X Y
      rw [← ih, add_comm, ← this]
      congr 1
      funext k l
      ring
  have him : im = fun k l => ∑ s : Fin h × Fin w, im s.1 s.2 * if k = s.1 ∧ l = s.2 then 1 else 0 := by
    funext k l
    rw [Finset.sum_eq_single (k, l)]
    · simp
    · rintro ⟨a, b⟩ _ hne
      rw [if_neg, mul_zero]
      rintro ⟨rfl, rfl⟩
      exact hne rfl
    · simp
  have hBim : B im = fun X Y => ∑ s : Fin h × Fin w, im s.1 s.2 * B (fun k l => if k = s.1 ∧ l = s.2 then 1 else 0) X Y := by
    funext X Y
    rw [← hsum Finset.univ X Y, ← him]
  have hcall : ∀ T : Finset (Fin h × Fin w),
      (x.call { c with source := some fun X Y => ∑ s ∈ T, im s.1 s.2 * B (fun k l => if k = s.1 ∧ l = s.2 then 1 else 0) X Y, lensLight := none }).at' i j =
        ∑ s ∈ T, im s.1 s.2 * (x.call { c with source := some (B fun k l => if k = s.1 ∧ l = s.2 then 1 else 0), lensLight := none }).at' i j := by
    intro T
    induction T using Finset.induction_on with
    | empty =>
      have := congrArg (fun I : Img => I.at' i j) (C42_linear_source x c (fun _ _ => 0) (fun _ _ => 0) 0 0)
      simpa [Img.comb] using this
    | insert s T hs ih =>
      have := congrArg (fun I : Img => I.at' i j) (C42_linear_source x c (B fun k l => if k = s.1 ∧ l = s.2 then 1 else 0)
        (fun X Y => ∑ s ∈ T, im s.1 s.2 * B (fun k l => if k = s.1 ∧ l = s.2 then 1 else 0) X Y) (im s.1 s.2) 1)
      simp only [Img.comb, one_mul] at this
      simp only [Finset.sum_insert hs]
      rw [this, ih]
  rw [hBim, hcall, ← Finset.univ_product_univ, Finset.sum_product]

/-! ### Instances -/

/-- The strength of an isothermal deflector, a Gaussian source, two by three pixels with two samples each, a PSF of
three elements. -/
example : ∃ x, Sim.new lib ⟨"fft", [1, 3], 1, 2, 3, 2, none⟩ = .ok x ∧ ∀ i j, ∃ D : ℝ →L[ℝ] ℝ,
    HasFDerivAt (fun θ : ℝ => (x.call { (SimScene.ofSky (fun a b => Real.exp (-(a ^ 2 + b ^ 2)))
      ⟨1, 3, fun _ j => if j = 1 then 2 else 1⟩ true) with
        lensSource := true, raytrace := fun a b => (a, b) - θ • (a / √(a ^ 2 + b ^ 2), b / √(a ^ 2 + b ^ 2)) }).at' i j) D 1 := by
  refine ⟨_, rfl, fun i j => ?_⟩
  obtain ⟨D, hD, -⟩ := C129_lens (lib := lib) (cfg := ⟨"fft", [1, 3], 1, 2, 3, 2, none⟩) rfl
    { (SimScene.ofSky (fun a b => Real.exp (-(a ^ 2 + b ^ 2))) ⟨1, 3, fun _ j => if j = 1 then 2 else 1⟩ true) with
      lensSource := true } (fun a b => Real.exp (-(a ^ 2 + b ^ 2))) rfl rfl rfl
    (fun (θ : ℝ) a b => θ • (a / √(a ^ 2 + b ^ 2), b / √(a ^ 2 + b ^ 2))) 1
    (fun a b => (ContinuousLinearMap.id ℝ ℝ).smulRight (a / √(a ^ 2 + b ^ 2), b / √(a ^ 2 + b ^ 2)))
    (fun q => fderiv ℝ (fun q : ℝ × ℝ => Real.exp (-(q.1 ^ 2 + q.2 ^ 2))) q)
    (fun P _ => (hasFDerivAt_id (1 : ℝ)).smul_const _)
    (fun P _ => (by fun_prop : DifferentiableAt ℝ (fun q : ℝ × ℝ => Real.exp (-(q.1 ^ 2 + q.2 ^ 2))) _).hasFDerivAt) i j
  exact ⟨D, hD⟩

example (x : Sim) (c : SimScene) (f g : ℝ → ℝ → ℝ) (w : Fin 2 → ℝ) :=
  C129_fit x c ![f, g] {(0, 0), (0, 1), (1, 0)} (fun _ => 1) (fun s => s.1 + s.2) (by simp) w

example (x : Sim) (c : SimScene) (hc : c.psfConvolve = true) (h3 : c.psf = ⟨1, 2, fun _ j => if j = 0 then 1 else 3⟩) (i j : ℕ) :
    (x.call c).at' i j = ((x.call { c with psf := .unit 1 2 0 0 }).at' i j + 3 * (x.call { c with psf := .unit 1 2 0 1 }).at' i j) / 4 := by
  have hs : c.psf.sum = 4 := by
    rw [h3]
    simp [Img.sum, Finset.sum_range_succ]
    norm_num
  have := C129_psf x c hc (by rw [h3]; simp) (by rw [hs]; norm_num) i j
  rw [this, hs, Finset.sum_product, h3]
  simp [Finset.sum_range_succ]

example (x : Sim) (c : SimScene) (im : Fin 2 → Fin 3 → ℝ) (i j : ℕ) := C129_pixelated x c (h := 2) (w := 3) (by norm_num) (by norm_num)
  0 0 1 1 "zeros" (by simp [Pad2]) (fun im X Y => match pixelatedBrightness (.d2 im) 0 0 1 1 X Y "zeros" with
    | .ok v => v
    | .error _ => 0) (fun im X Y => by
      obtain ⟨a, -, ha, -⟩ := C65_linear (h := 2) (w := 3) (by norm_num) (by norm_num) im im (0 : ℝ) 0 1 1 X Y 0 "zeros" (by simp [Pad2])
      rw [ha]) im i j

/-- The width of a PSF of two elements. -/
example (x : Sim) (c : SimScene) (hon : c.psfConvolve = true) := C129_psf_derivative (E := ℝ) x c hon 1 2 (by simp)
  (fun θ _ n => Real.exp (-(θ * n))) 1 (fun _ n => fderiv ℝ (fun θ : ℝ => Real.exp (-(θ * n))) 1)
  (fun m n _ _ => (by fun_prop : DifferentiableAt ℝ (fun θ : ℝ => Real.exp (-(θ * n))) 1).hasFDerivAt)
  (by simp [Img.sum, Finset.sum_range_succ]; positivity) 0 1

/-- The misfit as a function of the position of the field. -/
example : ∃ x, Sim.new lib ⟨"conv2d", [1, 3], 1, 2, 3, 2, none⟩ = .ok x ∧ ∃ G : ℝ →L[ℝ] ℝ,
    HasFDerivAt (fun t => ∑ s ∈ {(0, 0), (1, 1)}, (1 : ℝ) * ((x.call { (SimScene.ofSky (fun a b => Real.exp (-(a ^ 2 + b ^ 2)))
      ⟨1, 3, fun _ j => if j = 1 then 2 else 1⟩ true) with x0 := t }).at' s.1 s.2 - 1) ^ 2) G 0 := by
  refine ⟨_, rfl, ?_⟩
  obtain ⟨G, hG, -⟩ := C129_chi2 (lib := lib) (cfg := ⟨"conv2d", [1, 3], 1, 2, 3, 2, none⟩) rfl
    ⟨1, 3, fun _ j => if j = 1 then 2 else 1⟩ true (fun t : ℝ =>
      { (SimScene.ofSky (fun a b => Real.exp (-(a ^ 2 + b ^ 2))) ⟨1, 3, fun _ j => if j = 1 then 2 else 1⟩ true) with x0 := t })
    (fun _ => rfl) (fun _ => rfl) 0 (fun X Y => fderiv ℝ (fun t : ℝ => Real.exp (-((X + t) ^ 2 + (Y + 0) ^ 2)) + 0) 0)
    (fun P _ => (by fun_prop : DifferentiableAt ℝ (fun t : ℝ => Real.exp (-((P.1 + t) ^ 2 + (P.2 + 0) ^ 2)) + 0) 0).hasFDerivAt)
    {(0, 0), (1, 1)} (fun _ => 1) (fun _ => 1)
  exact ⟨G, hG⟩

end Caustics

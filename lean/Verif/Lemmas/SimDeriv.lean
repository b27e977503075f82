import Verif.Lemmas.SimSymm
import Verif.Props.LensImage
import Mathlib.Analysis.Calculus.FDeriv.Add
import Mathlib.Analysis.Calculus.FDeriv.Mul

/-! The simulated image as a fixed linear response to the sky. -/

namespace Caustics

variable {lib : SimLib}

/-- The image is the sampled sky, whatever the light is made of. -/
theorem scene_sample (x : Sim) (c : SimScene) : x.scene c = x.g.sample c.skyAt c.x0 c.y0 := by
  have hadd : ∀ f g : ℝ → ℝ → ℝ, x.g.sample (fun a b => f a b + g a b) c.x0 c.y0 =
      ⟨x.g.nPix.2, x.g.nPix.1, fun i j => (x.g.sample f c.x0 c.y0).at' i j + (x.g.sample g c.x0 c.y0).at' i j⟩ := by
    intro f g
    have := sample_comb x.g f g 1 1 c.x0 c.y0
    simp only [one_mul] at this
    rw [this, Img.comb]
    simp only [one_mul]
    rfl
  have hzero : x.g.sample (fun _ _ => (0 : ℝ)) c.x0 c.y0 = ⟨x.g.nPix.2, x.g.nPix.1, fun _ _ => 0⟩ := by
    have := sample_comb x.g (fun _ _ => 0) (fun _ _ => 0) 0 0 c.x0 c.y0
    simp only [mul_zero, add_zero] at this
    rw [this, Img.comb]
    simp only [zero_mul, add_zero]
    rfl
  have hdim : ∀ f, (x.g.sample f c.x0 c.y0).h = x.g.nPix.2 ∧ (x.g.sample f c.x0 c.y0).w = x.g.nPix.1 := fun f => ⟨rfl, rfl⟩
  obtain ⟨rt, src, ll, psf, x0, y0, b1, b2, b3, b4⟩ := c
  unfold Sim.scene SimScene.skyAt
  simp only at *
  cases src <;> cases ll <;> cases b1 <;> cases b2 <;> cases b3 <;>
    simp only [hadd, hzero, add_zero, zero_add, if_true, if_false, Bool.false_eq_true] <;> rfl

/-- One bright pixel. -/
def Img.unit (h w a b : ℕ) : Img := ⟨h, w, fun i j => if i = a ∧ j = b then 1 else 0⟩

theorem finish_zero (x : Sim) (pc : Bool) (psf : Img) (h w i j : ℕ) :
    (x.finish pc psf ⟨h, w, fun _ _ => 0⟩).at' i j = 0 := by
  have := finish_comb x pc psf (a := ⟨h, w, fun _ _ => 0⟩) (b := ⟨h, w, fun _ _ => 0⟩) rfl rfl 0 0
  have e : Img.comb 0 0 ⟨h, w, fun _ _ => 0⟩ ⟨h, w, fun _ _ => 0⟩ = (⟨h, w, fun _ _ => 0⟩ : Img) := by
    simp [Img.comb]
  rw [e] at this
  rw [this]
  simp [Img.comb]

theorem finish_sum (x : Sim) (pc : Bool) (psf : Img) (h w i j : ℕ) {ι : Type*} (S : Finset ι) (k : ι → ℝ)
    (f : ι → ℕ → ℕ → ℝ) :
    (x.finish pc psf ⟨h, w, fun a b => ∑ s ∈ S, k s * f s a b⟩).at' i j = ∑ s ∈ S, k s * (x.finish pc psf ⟨h, w, f s⟩).at' i j := by
  classical
  induction S using Finset.induction_on with
  | empty => simpa using finish_zero x pc psf h w i j
  | insert s S hs ih =>
    rw [Finset.sum_insert hs, ← ih]
    have := finish_comb x pc psf (a := ⟨h, w, f s⟩) (b := ⟨h, w, fun a b => ∑ s ∈ S, k s * f s a b⟩) rfl rfl (k s) 1
    have e : Img.comb (k s) 1 ⟨h, w, f s⟩ ⟨h, w, fun a b => ∑ s ∈ S, k s * f s a b⟩ =
        ⟨h, w, fun a b => ∑ t ∈ insert s S, k t * f t a b⟩ := by
      simp [Img.comb, Finset.sum_insert hs]
    rw [← e, this]
    simp [Img.comb]

theorem unit_expand (mu : Img) (h0 : ∀ a b, mu.h ≤ a ∨ mu.w ≤ b → mu.at' a b = 0) :
    mu = ⟨mu.h, mu.w, fun a b => ∑ s ∈ Finset.range mu.h ×ˢ Finset.range mu.w,
      mu.at' s.1 s.2 * (Img.unit mu.h mu.w s.1 s.2).at' a b⟩ := by
  rw [Img.ext_iff]
  refine ⟨rfl, rfl, funext fun a => funext fun b => ?_⟩
  simp only [Img.unit]
  by_cases hab : a < mu.h ∧ b < mu.w
  · rw [Finset.sum_eq_single (a, b)]
    · simp
    · rintro ⟨c, d⟩ _ hne
      rw [if_neg, mul_zero]
      rintro ⟨rfl, rfl⟩
      exact hne rfl
    · intro h
      exact absurd (Finset.mem_product.2 ⟨Finset.mem_range.2 hab.1, Finset.mem_range.2 hab.2⟩) h
  · rw [h0 a b (by omega), Finset.sum_eq_zero]
    rintro ⟨c, d⟩ hs
    simp only [Finset.mem_product, Finset.mem_range] at hs
    rw [if_neg, mul_zero]
    rintro ⟨rfl, rfl⟩
    exact hab hs

theorem finish_expand (x : Sim) (pc : Bool) (psf mu : Img) (h0 : ∀ a b, mu.h ≤ a ∨ mu.w ≤ b → mu.at' a b = 0) (i j : ℕ) :
    (x.finish pc psf mu).at' i j = ∑ s ∈ Finset.range mu.h ×ˢ Finset.range mu.w,
      mu.at' s.1 s.2 * (x.finish pc psf (Img.unit mu.h mu.w s.1 s.2)).at' i j := by
  conv_lhs => rw [unit_expand mu h0]
  exact finish_sum x pc psf mu.h mu.w i j _ _ _

theorem sample_outside {cfg : SimCfg} {x : Sim} (h : Sim.new lib cfg = .ok x) (f : ℝ → ℝ → ℝ) (x0 y0 : ℝ) {a b : ℕ}
    (hab : x.g.nPix.2 ≤ a ∨ x.g.nPix.1 ≤ b) : (x.g.sample f x0 y0).at' a b = 0 := by
  obtain ⟨k0, k1, l, hs, hc, hu, hpad, hn, hss, hw, hgrid⟩ := new_ok h
  obtain ⟨l1, l2, r1, r2, -⟩ := C06_entries (cfg.pixelscale / cfg.upsample) x.g.nPix.1 (some x.g.nPix.2)
  have e : (x.g.grid.getD a []).getD b [] = [] := by
    rw [hgrid]
    simp only [List.getD_eq_getElem?_getD, List.getElem?_zipWith]
    cases hX : (meshgrid (cfg.pixelscale / cfg.upsample) x.g.nPix.1 (some x.g.nPix.2)).1[a]? with
    | none => simp
    | some rX =>
      cases hY : (meshgrid (cfg.pixelscale / cfg.upsample) x.g.nPix.1 (some x.g.nPix.2)).2[a]? with
      | none => simp
      | some rY =>
        have ha : a < x.g.nPix.2 := by
          have := (List.getElem?_eq_some_iff.1 hX).1
          rw [l1] at this
          exact this
        have hlX := r1 rX (List.mem_of_getElem? hX)
        have hb : x.g.nPix.1 ≤ b := by omega
        simp only [Option.getD_some]
        rw [List.getElem?_zipWith, List.getElem?_eq_none (l := rX) (by omega)]
        rfl
  simp only [SimGrid.sample]
  rw [e]
  simp [quadIntegrate]

/-- The part of pixel `(i, j)` of the image that comes from unit brightness on one pixel of the padded grid. -/
noncomputable def Sim.response (x : Sim) (psfConvolve : Bool) (psf : Img) (i j a b : ℕ) : ℝ :=
  (x.finish psfConvolve psf (Img.unit x.g.nPix.2 x.g.nPix.1 a b)).at' i j

theorem call_response {cfg : SimCfg} {x : Sim} (h : Sim.new lib cfg = .ok x) (c : SimScene) (i j : ℕ) :
    (x.call c).at' i j = ∑ s ∈ Finset.range x.g.nPix.2 ×ˢ Finset.range x.g.nPix.1,
      (x.g.sample c.skyAt c.x0 c.y0).at' s.1 s.2 * x.response c.psfConvolve c.psf i j s.1 s.2 := by
  unfold Sim.call
  rw [scene_sample]
  exact finish_expand x _ _ _ (fun a b hab => sample_outside h _ _ _ hab) i j

/-! ### The PSF -/

/-- `Sim.convolve` with a kernel in place of the normalised PSF. -/
noncomputable def Sim.blurWith (x : Sim) (k mu : Img) : Img :=
  if x.cfg.psfMode = "fft" then
    ((irfft2 (fun u v => rfft2 mu x.g.s.1 x.g.s.2 u v * rfft2 k x.g.s.1 x.g.s.2 u v) x.g.s.1 x.g.s.2).roll
      (-x.g.psfPad.1) (-x.g.psfPad.2)).slice 0 x.g.s.1 0 x.g.s.2
  else conv2dSame mu k.flip

theorem convolve_blurWith {x : Sim} (hm : x.cfg.psfMode = "fft" ∨ x.cfg.psfMode = "conv2d") (psf mu : Img) :
    x.convolve psf mu = x.blurWith (psf.div psf.sum) mu := by
  unfold Sim.convolve Sim.blurWith
  by_cases h : x.cfg.psfMode = "fft"
  · rw [if_pos h, if_pos h]
  · rw [if_neg h, if_neg h, if_pos (hm.resolve_left h)]
    rfl

theorem blurWith_dims (x : Sim) (k k' mu : Img) :
    (x.blurWith k mu).h = (x.blurWith k' mu).h ∧ (x.blurWith k mu).w = (x.blurWith k' mu).w := by
  by_cases h : x.cfg.psfMode = "fft"
  · simp only [Sim.blurWith, if_pos h, Img.slice, Img.roll, irfft2, and_self]
  · simp only [Sim.blurWith, if_neg h, conv2dSame, and_self]

theorem blurWith_comb (x : Sim) (mu : Img) {a b : Img} (hh : b.h = a.h) (hw : b.w = a.w) (s t : ℝ) :
    x.blurWith (Img.comb s t a b) mu = Img.comb s t (x.blurWith a mu) (x.blurWith b mu) := by
  unfold Sim.blurWith
  split
  · have e : (irfft2 (fun u v => rfft2 mu x.g.s.1 x.g.s.2 u v * rfft2 (Img.comb s t a b) x.g.s.1 x.g.s.2 u v) x.g.s.1 x.g.s.2)
        = Img.comb s t (irfft2 (fun u v => rfft2 mu x.g.s.1 x.g.s.2 u v * rfft2 a x.g.s.1 x.g.s.2 u v) x.g.s.1 x.g.s.2)
          (irfft2 (fun u v => rfft2 mu x.g.s.1 x.g.s.2 u v * rfft2 b x.g.s.1 x.g.s.2 u v) x.g.s.1 x.g.s.2) := by
      have : (fun u v => rfft2 mu x.g.s.1 x.g.s.2 u v * rfft2 (Img.comb s t a b) x.g.s.1 x.g.s.2 u v)
          = fun u v => s * (rfft2 mu x.g.s.1 x.g.s.2 u v * rfft2 a x.g.s.1 x.g.s.2 u v)
            + t * (rfft2 mu x.g.s.1 x.g.s.2 u v * rfft2 b x.g.s.1 x.g.s.2 u v) := by
        funext u v
        rw [rfft2_comb hh hw]; ring
      rw [this]
      unfold Img.comb
      rw [Img.ext_iff]
      exact ⟨rfl, rfl, funext fun i => funext fun j => irfft2_comb _ _ s t _ _ i j⟩
    simp only [e]
    rfl
  · unfold conv2dSame
    rw [Img.ext_iff]
    refine ⟨rfl, rfl, funext fun i => funext fun j => ?_⟩
    simp only [Img.comb, Img.flip, hh, hw, Finset.mul_sum, ← Finset.sum_add_distrib]
    refine Finset.sum_congr rfl fun m _ => Finset.sum_congr rfl fun n _ => ?_
    ring

theorem blurWith_pad (x : Sim) (k mu : Img) : x.blurWith k mu = x.blurWith ⟨k.h, k.w, k.pad⟩ mu := by
  unfold Sim.blurWith
  split
  · have : ∀ u v, rfft2 k x.g.s.1 x.g.s.2 u v = rfft2 ⟨k.h, k.w, k.pad⟩ x.g.s.1 x.g.s.2 u v := by
      intro u v
      unfold rfft2
      refine Finset.sum_congr rfl fun a _ => Finset.sum_congr rfl fun b _ => ?_
      simp only [Img.pad]
      split <;> rfl
    simp only [this]
  · unfold conv2dSame
    rw [Img.ext_iff]
    refine ⟨rfl, rfl, funext fun i => funext fun j => ?_⟩
    simp only [Img.flip]
    refine Finset.sum_congr rfl fun m hm => Finset.sum_congr rfl fun n hn => ?_
    rw [Finset.mem_range] at hm hn
    simp only [Img.pad]
    rw [if_pos ⟨by omega, by omega⟩]

/-- Clipping and downsampling. -/
noncomputable def Sim.crop (x : Sim) (mu : Img) : Img :=
  (mu.slice x.g.psfPad.2 (x.cfg.pixelsY * x.cfg.upsample + x.g.psfPad.2) x.g.psfPad.1
    (x.cfg.pixelsX * x.cfg.upsample + x.g.psfPad.1)).avgPool x.cfg.upsample

theorem crop_comb (x : Sim) {a b : Img} (hh : b.h = a.h) (hw : b.w = a.w) (s t : ℝ) :
    x.crop (Img.comb s t a b) = Img.comb s t (x.crop a) (x.crop b) := by
  unfold Sim.crop
  rw [Img.ext_iff]
  refine ⟨rfl, rfl, funext fun i => funext fun j => ?_⟩
  simp only [Img.avgPool, Img.slice, Img.comb, hh, hw]
  rw [← mul_div_assoc, ← mul_div_assoc, ← add_div]
  simp only [Finset.mul_sum, ← Finset.sum_add_distrib]

theorem crop_blurWith_comb (x : Sim) (mu : Img) (h w : ℕ) (f g : ℕ → ℕ → ℝ) (s t : ℝ) (i j : ℕ) :
    (x.crop (x.blurWith ⟨h, w, fun a b => s * f a b + t * g a b⟩ mu)).at' i j =
      s * (x.crop (x.blurWith ⟨h, w, f⟩ mu)).at' i j + t * (x.crop (x.blurWith ⟨h, w, g⟩ mu)).at' i j := by
  have := blurWith_comb x mu (a := ⟨h, w, f⟩) (b := ⟨h, w, g⟩) rfl rfl s t
  unfold Img.comb at this
  rw [this]
  obtain ⟨h1, h2⟩ := blurWith_dims x ⟨h, w, g⟩ ⟨h, w, f⟩ mu
  have := crop_comb x h1 h2 s t
  unfold Img.comb at this
  rw [this]

theorem crop_blurWith_sum (x : Sim) (mu : Img) (h w i j : ℕ) {ι : Type*} (S : Finset ι) (k : ι → ℝ) (f : ι → ℕ → ℕ → ℝ) :
    (x.crop (x.blurWith ⟨h, w, fun a b => ∑ s ∈ S, k s * f s a b⟩ mu)).at' i j =
      ∑ s ∈ S, k s * (x.crop (x.blurWith ⟨h, w, f s⟩ mu)).at' i j := by
  classical
  induction S using Finset.induction_on with
  | empty =>
    have := crop_blurWith_comb x mu h w (fun _ _ => 0) (fun _ _ => 0) 0 0 i j
    simpa using this
  | insert s S hs ih =>
    have := crop_blurWith_comb x mu h w (f s) (fun a b => ∑ s ∈ S, k s * f s a b) (k s) 1 i j
    simp only [one_mul] at this
    simp only [Finset.sum_insert hs]
    rw [this, ih]

theorem Img.unit_sum {h w m n : ℕ} (hm : m < h) (hn : n < w) : (Img.unit h w m n).sum = 1 := by
  unfold Img.sum Img.unit
  simp only
  rw [Finset.sum_eq_single m, Finset.sum_eq_single n]
  · simp
  · intro b _ hb; simp [hb]
  · intro hb; exact absurd (Finset.mem_range.2 hn) hb
  · intro b _ hb; simp [hb]
  · intro hb; exact absurd (Finset.mem_range.2 hm) hb

/-- A pixel as a sum over the elements of the PSF. -/
theorem finish_psf (x : Sim) (psf mu : Img) (h11 : ¬(psf.h = 1 ∧ psf.w = 1)) (hs : psf.sum ≠ 0) (i j : ℕ) :
    (x.finish true psf mu).at' i j = (∑ s ∈ Finset.range psf.h ×ˢ Finset.range psf.w,
      psf.at' s.1 s.2 * (x.finish true (.unit psf.h psf.w s.1 s.2) mu).at' i j) / psf.sum := by
  have hfin : ∀ k : Img, ¬(k.h = 1 ∧ k.w = 1) → x.finish true k mu = x.crop (x.convolve k mu) := by
    intro k hk
    unfold Sim.finish Sim.crop
    simp only [if_neg hk, if_true]
  have hfu : ∀ s : ℕ × ℕ, x.finish true (.unit psf.h psf.w s.1 s.2) mu = x.crop (x.convolve (.unit psf.h psf.w s.1 s.2) mu) :=
    fun s => hfin _ h11
  by_cases hm : x.cfg.psfMode = "fft" ∨ x.cfg.psfMode = "conv2d"
  · rw [hfin psf h11, convolve_blurWith hm, blurWith_pad,
      unit_expand ⟨(psf.div psf.sum).h, (psf.div psf.sum).w, (psf.div psf.sum).pad⟩ (by
        intro a b hab
        simp only [Img.pad]
        rw [if_neg]
        rintro ⟨h1, h2⟩
        simp only at hab
        omega), crop_blurWith_sum, Finset.sum_div]
    refine Finset.sum_congr rfl fun s hs' => ?_
    simp only [Finset.mem_product, Finset.mem_range] at hs'
    have hu : x.blurWith ⟨(psf.div psf.sum).h, (psf.div psf.sum).w, (Img.unit (psf.div psf.sum).h (psf.div psf.sum).w s.1 s.2).at'⟩ mu =
        x.convolve (.unit psf.h psf.w s.1 s.2) mu := by
      rw [convolve_blurWith hm, Img.unit_sum hs'.1 hs'.2]
      congr 1
      simp [Img.div, Img.unit]
    have hpad : (psf.div psf.sum).pad s.1 s.2 = psf.at' s.1 s.2 / psf.sum := if_pos hs'
    rw [hfu, ← hu]
    simp only [hpad]
    ring
  · have hid : ∀ k, x.convolve k mu = mu := by
      intro k
      unfold Sim.convolve
      rw [not_or] at hm
      rw [if_neg hm.1, if_neg hm.2]
    simp only [hfu, hfin psf h11, hid, ← Finset.sum_mul]
    rw [Finset.sum_product, eq_div_iff hs, mul_comm]
    rfl

variable {E : Type*} [NormedAddCommGroup E] [NormedSpace ℝ E]

theorem hasFDerivAt_quadIntegrate (l : List (ℝ × ℝ)) (w : List ℝ) (F : E → ℝ × ℝ → ℝ) (F' : ℝ × ℝ → E →L[ℝ] ℝ) {t : E}
    (h : ∀ P ∈ l, HasFDerivAt (fun θ => F θ P) (F' P) t) :
    ∃ D : E →L[ℝ] ℝ, HasFDerivAt (fun θ => quadIntegrate (l.map (F θ)) w) D t ∧
      ∀ v, D v = quadIntegrate (l.map fun P => F' P v) w := by
  unfold quadIntegrate
  induction l generalizing w with
  | nil => exact ⟨0, by simpa using hasFDerivAt_const (0 : ℝ) t, by simp⟩
  | cons P l ih =>
    cases w with
    | nil => exact ⟨0, by simpa using hasFDerivAt_const (0 : ℝ) t, by simp⟩
    | cons b w =>
      obtain ⟨D, hD, hv⟩ := ih w fun P hP => h P (by simp [hP])
      refine ⟨b • F' P + D, ?_, fun v => ?_⟩
      · have := ((h P (by simp)).mul_const b).add hD
        simp only [List.map_cons, List.zipWith_cons_cons, List.sum_cons]
        exact this
      · simp only [List.map_cons, List.zipWith_cons_cons, List.sum_cons, ← hv]
        simp [mul_comm]

end Caustics

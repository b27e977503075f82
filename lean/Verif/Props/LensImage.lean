import Verif.Props.LensSource

/-! The rest of C40 (where the two PSF modes differ), C41 (output shape) and C42 (uniform brightness,
linearity). -/

namespace Caustics

variable {lib : SimLib}

/-! ### C41 -/

/-- Shape of the field after the convolution step. -/
theorem convolve_dims (x : Sim) (psf mu : Img) :
    ((x.convolve psf mu).h, (x.convolve psf mu).w) =
      if x.cfg.psfMode = "fft" then (x.g.s.1, x.g.s.2) else (mu.h, mu.w) := by
  unfold Sim.convolve
  split
  · change (min x.g.s.1 x.g.s.1 - min 0 x.g.s.1, min x.g.s.2 x.g.s.2 - min 0 x.g.s.2) = _
    simp
  · split <;> rfl

theorem crop_exact {u p a n : ℕ} (hu : u ≠ 0) (hn : n = p * u + a * 2) :
    (min (p * u + a) n - min a n) / u = p := by
  have : min (p * u + a) n - min a n = p * u := by omega
  rw [this, Nat.mul_div_cancel _ (Nat.pos_of_ne_zero hu)]

theorem crop_iff {u p a n : ℕ} (hu : u ≠ 0) (hp : p ≠ 0) :
    (min (p * u + a) n - min a n) / u = p ↔ p * u + a ≤ n := by
  have hu' : 0 < u := Nat.pos_of_ne_zero hu
  constructor
  · intro h
    by_contra hlt
    have h1 : p * u ≤ min (p * u + a) n - min a n := by
      have := Nat.div_mul_le_self (min (p * u + a) n - min a n) u
      rwa [h] at this
    have h2 : 0 < p * u := Nat.mul_pos (Nat.pos_of_ne_zero hp) hu'
    omega
  · intro h
    have : min (p * u + a) n - min a n = p * u := by omega
    rw [this, Nat.mul_div_cancel _ hu']

/-- The claim. -/
def C41_statement : Prop :=
  ∀ (lib : SimLib) (_ : ∀ n, n ≤ lib.fast n) (cfg : SimCfg) (x : Sim), Sim.new lib cfg = .ok x →
    ∀ c : SimScene, cfg.psfShape = [c.psf.h, c.psf.w] →
      (x.call c).h = cfg.pixelsY ∧ (x.call c).w = cfg.pixelsX

/-- Without FFT convolution (direct convolution, convolution switched off, or a 1 by 1 PSF) the image
has the requested shape, for all settings. -/
theorem C41_shape_direct {cfg : SimCfg} {x : Sim} (h : Sim.new lib cfg = .ok x) (c : SimScene)
    (hm : cfg.psfMode ≠ "fft" ∨ c.psfConvolve = false ∨ (c.psf.h = 1 ∧ c.psf.w = 1)) :
    (x.call c).h = cfg.pixelsY ∧ (x.call c).w = cfg.pixelsX := by
  obtain ⟨k0, k1, l, hs, hc, hu, hpad, hn, -⟩ := new_ok h
  have hd := scene_dims x c
  unfold Sim.call Sim.finish
  simp only
  set pc := (if c.psf.h = 1 ∧ c.psf.w = 1 then false else c.psfConvolve)
  have key : (if pc = true then x.convolve c.psf (x.scene c) else x.scene c).h = x.g.nPix.2 ∧
      (if pc = true then x.convolve c.psf (x.scene c) else x.scene c).w = x.g.nPix.1 := by
    split
    · rename_i hpc
      have hne : x.cfg.psfMode ≠ "fft" := by
        rw [hc]
        rcases hm with hm | hm | hm
        · exact hm
        · simp only [pc, hm, ite_self] at hpc; cases hpc
        · simp only [pc, if_pos hm] at hpc; cases hpc
      have := convolve_dims x c.psf (x.scene c)
      rw [if_neg hne, Prod.mk.injEq] at this
      exact ⟨this.1.trans hd.1, this.2.trans hd.2⟩
    · exact hd
  constructor
  · change (min _ _ - min _ _) / _ = _
    rw [key.1, hc, hpad, hn]
    exact crop_exact hu rfl
  · change (min _ _ - min _ _) / _ = _
    rw [key.2, hc, hpad, hn]
    exact crop_exact hu rfl

/-- With FFT convolution the image has the requested shape exactly if the FFT length computed from the
*number of columns* covers the rows that are cut out, and the one computed from the number of rows
covers the columns. -/
theorem C41_fft_iff {cfg : SimCfg} {x : Sim} (h : Sim.new lib cfg = .ok x) (c : SimScene)
    (hpsf : cfg.psfShape = [c.psf.h, c.psf.w]) (hm : cfg.psfMode = "fft") (hcv : c.psfConvolve = true)
    (h1 : ¬(c.psf.h = 1 ∧ c.psf.w = 1)) (hx : cfg.pixelsX ≠ 0) (hy : cfg.pixelsY ≠ 0) :
    ((x.call c).h = cfg.pixelsY ∧ (x.call c).w = cfg.pixelsX) ↔
      cfg.pixelsY * cfg.upsample + c.psf.h / 2 ≤ lib.fast (cfg.pixelsX * cfg.upsample + c.psf.w / 2 * 2) ∧
      cfg.pixelsX * cfg.upsample + c.psf.w / 2 ≤ lib.fast (cfg.pixelsY * cfg.upsample + c.psf.h / 2 * 2) := by
  obtain ⟨k0, k1, l, hs, hc, hu, hpad, hn, hss, -⟩ := new_ok h
  rw [hpsf] at hs
  simp only [List.cons.injEq] at hs
  obtain ⟨rfl, rfl, -⟩ := hs
  have hd := convolve_dims x c.psf (x.scene c)
  rw [hc, if_pos hm, Prod.mk.injEq, hss, hn] at hd
  unfold Sim.call Sim.finish
  simp only [if_neg h1, hcv, if_true]
  refine Iff.and ?_ ?_
  · change (min _ _ - min _ _) / _ = _ ↔ _
    rw [hd.1, hc, hpad]
    exact crop_iff hu hy
  · change (min _ _ - min _ _) / _ = _ ↔ _
    rw [hd.2, hc, hpad]
    exact crop_iff hu hx

/-- Square images with square PSFs always have the requested shape, in every mode.  Missing: the
others, see `C41_fft_iff`. -/
theorem C41_square_partial (hfast : ∀ n, n ≤ lib.fast n) {cfg : SimCfg} {x : Sim} (h : Sim.new lib cfg = .ok x)
    (c : SimScene) (hpsf : cfg.psfShape = [c.psf.h, c.psf.w]) (hsq : cfg.pixelsX = cfg.pixelsY)
    (hp : c.psf.h = c.psf.w) : (x.call c).h = cfg.pixelsY ∧ (x.call c).w = cfg.pixelsX := by
  by_cases hc : cfg.psfMode ≠ "fft" ∨ c.psfConvolve = false ∨ (c.psf.h = 1 ∧ c.psf.w = 1)
  · exact C41_shape_direct h c hc
  · rw [not_or, not_or, not_not, Bool.not_eq_false] at hc
    by_cases h0 : cfg.pixelsX = 0
    · obtain ⟨k0, k1, l, hs, hcf, hu, hpad, hn, hss, -⟩ := new_ok h
      unfold Sim.call Sim.finish
      simp only [if_neg hc.2.2, hc.2.1, if_true]
      constructor
      · change (min _ _ - min _ _) / _ = _
        rw [hcf, ← hsq, h0, Nat.zero_mul, Nat.zero_add, Nat.sub_self, Nat.zero_div]
      · change (min _ _ - min _ _) / _ = _
        rw [hcf, h0, Nat.zero_mul, Nat.zero_add, Nat.sub_self, Nat.zero_div]
    · refine (C41_fft_iff h c hpsf hc.1 hc.2.1 hc.2.2 h0 (hsq ▸ h0)).2 ⟨?_, ?_⟩
      · rw [hsq, hp]; exact le_trans (by omega) (hfast _)
      · rw [hsq, hp]; exact le_trans (by omega) (hfast _)

/-- Settings used as witness: 10 by 5 pixels, 3 by 3 PSF. -/
noncomputable def wideCfg : SimCfg := ⟨"fft", [3, 3], 1, 10, 5, 1, none⟩

/-- A library for which all lengths are fast. -/
def idLib : SimLib := ⟨id, fun _ => []⟩

/-- Asking for 10 columns and 5 rows gives an image with 5 rows and 6 columns. -/
theorem C41_fails : ¬ C41_statement := by
  intro h
  have h' := h idLib (fun n => le_refl n) wideCfg _ rfl
    ⟨fun a b => (a, b), none, none, ⟨3, 3, fun _ _ => 1⟩, 0, 0, true, true, true, true⟩ rfl
  have := ((C41_fft_iff rfl _ rfl rfl rfl (by simp) (by simp [wideCfg]) (by simp [wideCfg])).1 h').2
  simp [wideCfg, idLib] at this

/-- The shape actually returned there. -/
example : ∃ x, Sim.new idLib wideCfg = .ok x ∧
    let im := x.call ⟨fun a b => (a, b), none, none, ⟨3, 3, fun _ _ => 1⟩, 0, 0, true, true, true, true⟩
    (im.h, im.w) = (5, 6) := by
  refine ⟨_, rfl, ?_⟩
  simp [Sim.call, Sim.finish, Sim.convolve, Img.slice, Img.avgPool, Img.roll, irfft2_h, irfft2_w, wideCfg, idLib]

/-- `psf_mode="conv2d"` with the same settings: 5 rows and 10 columns. -/
example : ∃ x, Sim.new idLib { wideCfg with psfMode := "conv2d" } = .ok x ∧
    let im := x.call ⟨fun a b => (a, b), none, none, ⟨3, 3, fun _ _ => 1⟩, 0, 0, true, true, true, true⟩
    im.h = 5 ∧ im.w = 10 :=
  ⟨_, rfl, C41_shape_direct (cfg := { wideCfg with psfMode := "conv2d" }) rfl _ (Or.inl (by simp))⟩

/-! ### C42 -/

/-- `s` times one image plus `t` times another one of the same shape. -/
noncomputable def Img.comb (s t : ℝ) (a b : Img) : Img := ⟨a.h, a.w, fun i j => s * a.at' i j + t * b.at' i j⟩

theorem pad_comb {a b : Img} (hh : b.h = a.h) (hw : b.w = a.w) (s t : ℝ) (i j : ℕ) :
    (Img.comb s t a b).pad i j = s * a.pad i j + t * b.pad i j := by
  unfold Img.pad Img.comb
  simp only [hh, hw]
  split <;> simp

theorem padZ_comb {a b : Img} (hh : b.h = a.h) (hw : b.w = a.w) (s t : ℝ) (i j : ℤ) :
    (Img.comb s t a b).padZ i j = s * a.padZ i j + t * b.padZ i j := by
  unfold Img.padZ
  split
  · exact pad_comb hh hw s t _ _
  · simp

theorem rfft2_comb {a b : Img} (hh : b.h = a.h) (hw : b.w = a.w) (s t : ℝ) (s0 s1 u v : ℕ) :
    rfft2 (Img.comb s t a b) s0 s1 u v = s * rfft2 a s0 s1 u v + t * rfft2 b s0 s1 u v := by
  unfold rfft2
  simp only [Finset.mul_sum, ← Finset.sum_add_distrib]
  refine Finset.sum_congr rfl fun p _ => Finset.sum_congr rfl fun q _ => ?_
  rw [pad_comb hh hw]
  push_cast
  ring

theorem irfft2_comb (X Y : ℕ → ℕ → ℂ) (s t : ℝ) (s0 s1 a b : ℕ) :
    (irfft2 (fun u v => s * X u v + t * Y u v) s0 s1).at' a b
      = s * (irfft2 X s0 s1).at' a b + t * (irfft2 Y s0 s1).at' a b := by
  unfold irfft2
  simp only
  have hQ : ∀ v, (∑ u ∈ Finset.range s0, (s * X u v + t * Y u v) * twiddle s0 (u * a)) / (s0 : ℂ)
      = s * ((∑ u ∈ Finset.range s0, X u v * twiddle s0 (u * a)) / s0)
        + t * ((∑ u ∈ Finset.range s0, Y u v * twiddle s0 (u * a)) / s0) := by
    intro v
    rw [← mul_div_assoc, ← mul_div_assoc, ← add_div, Finset.mul_sum, Finset.mul_sum, ← Finset.sum_add_distrib]
    congr 1
    refine Finset.sum_congr rfl fun u _ => ?_
    ring
  simp only [hQ]
  rw [← mul_div_assoc, ← mul_div_assoc, ← add_div, Finset.mul_sum, Finset.mul_sum, ← Finset.sum_add_distrib]
  congr 1
  refine Finset.sum_congr rfl fun v _ => ?_
  split
  · rw [add_mul, Complex.add_re, mul_assoc, mul_assoc, Complex.re_ofReal_mul, Complex.re_ofReal_mul]
  · rw [map_add, map_mul, map_mul, Complex.conj_ofReal, Complex.conj_ofReal, add_mul, Complex.add_re,
      mul_assoc, mul_assoc, Complex.re_ofReal_mul, Complex.re_ofReal_mul]

theorem convolve_comb (x : Sim) (psf : Img) {a b : Img} (hh : b.h = a.h) (hw : b.w = a.w) (s t : ℝ) :
    x.convolve psf (Img.comb s t a b) = Img.comb s t (x.convolve psf a) (x.convolve psf b) := by
  unfold Sim.convolve
  split
  · have e : (irfft2 (fun u v => rfft2 (Img.comb s t a b) x.g.s.1 x.g.s.2 u v *
          rfft2 (psf.div psf.sum) x.g.s.1 x.g.s.2 u v) x.g.s.1 x.g.s.2)
        = Img.comb s t
          (irfft2 (fun u v => rfft2 a x.g.s.1 x.g.s.2 u v * rfft2 (psf.div psf.sum) x.g.s.1 x.g.s.2 u v) x.g.s.1 x.g.s.2)
          (irfft2 (fun u v => rfft2 b x.g.s.1 x.g.s.2 u v * rfft2 (psf.div psf.sum) x.g.s.1 x.g.s.2 u v)
            x.g.s.1 x.g.s.2) := by
      have : (fun u v => rfft2 (Img.comb s t a b) x.g.s.1 x.g.s.2 u v * rfft2 (psf.div psf.sum) x.g.s.1 x.g.s.2 u v)
          = fun u v => s * (rfft2 a x.g.s.1 x.g.s.2 u v * rfft2 (psf.div psf.sum) x.g.s.1 x.g.s.2 u v)
            + t * (rfft2 b x.g.s.1 x.g.s.2 u v * rfft2 (psf.div psf.sum) x.g.s.1 x.g.s.2 u v) := by
        funext u v
        rw [rfft2_comb hh hw]; ring
      rw [this]
      unfold Img.comb
      rw [Img.ext_iff]
      exact ⟨rfl, rfl, funext fun i => funext fun j => irfft2_comb _ _ s t _ _ i j⟩
    simp only [e]
    rfl
  · split
    · unfold conv2dSame
      rw [Img.ext_iff]
      refine ⟨rfl, rfl, funext fun i => funext fun j => ?_⟩
      simp only [padZ_comb hh hw]
      simp only [Img.comb, Finset.mul_sum, ← Finset.sum_add_distrib]
      refine Finset.sum_congr rfl fun m _ => Finset.sum_congr rfl fun n _ => ?_
      ring
    · rfl

theorem finish_comb (x : Sim) (pc : Bool) (psf : Img) {a b : Img} (hh : b.h = a.h) (hw : b.w = a.w) (s t : ℝ) :
    x.finish pc psf (Img.comb s t a b) = Img.comb s t (x.finish pc psf a) (x.finish pc psf b) := by
  have post : ∀ A B : Img, B.h = A.h → B.w = A.w → ∀ r0 r1 c0 c1 u : ℕ,
      ((Img.comb s t A B).slice r0 r1 c0 c1).avgPool u
        = Img.comb s t ((A.slice r0 r1 c0 c1).avgPool u) ((B.slice r0 r1 c0 c1).avgPool u) := by
    intro A B h1 h2 r0 r1 c0 c1 u
    rw [Img.ext_iff]
    refine ⟨rfl, rfl, funext fun i => funext fun j => ?_⟩
    simp only [Img.avgPool, Img.slice, Img.comb, h1, h2]
    rw [← mul_div_assoc, ← mul_div_assoc, ← add_div]
    simp only [Finset.mul_sum, ← Finset.sum_add_distrib]
  unfold Sim.finish
  simp only
  generalize (if psf.h = 1 ∧ psf.w = 1 then false else pc) = q
  cases q with
  | false =>
    simp only [Bool.false_eq_true, if_false]
    exact post a b hh hw _ _ _ _ _
  | true =>
    simp only [if_true]
    rw [convolve_comb x psf hh hw]
    have ha := convolve_dims x psf a
    have hb := convolve_dims x psf b
    rw [hh, hw, ← ha, Prod.mk.injEq] at hb
    exact post _ _ hb.1 hb.2 _ _ _ _ _

theorem quadIntegrate_comb {A : Type*} (l : List A) (w : List ℝ) (f g : A → ℝ) (s t : ℝ) :
    quadIntegrate (l.map fun a => s * f a + t * g a) w
      = s * quadIntegrate (l.map f) w + t * quadIntegrate (l.map g) w := by
  unfold quadIntegrate
  induction l generalizing w with
  | nil => simp
  | cons a l ih =>
    cases w with
    | nil => simp
    | cons b w =>
      simp only [List.map_cons, List.zipWith_cons_cons, List.sum_cons]
      rw [ih]
      ring

theorem sample_comb (g : SimGrid) (f k : ℝ → ℝ → ℝ) (s t x0 y0 : ℝ) :
    g.sample (fun a b => s * f a b + t * k a b) x0 y0 = Img.comb s t (g.sample f x0 y0) (g.sample k x0 y0) := by
  unfold SimGrid.sample Img.comb
  rw [Img.ext_iff]
  exact ⟨rfl, rfl, funext fun i => funext fun j => quadIntegrate_comb _ _ _ _ _ _⟩

/-- The image is linear in the source brightness: in every PSF mode, for every lens, PSF, upsampling,
quadrature table and for an object in any state. -/
theorem C42_linear_source (x : Sim) (c : SimScene) (f g : ℝ → ℝ → ℝ) (s t : ℝ) :
    x.call { c with source := some fun a b => s * f a b + t * g a b, lensLight := none }
      = Img.comb s t (x.call { c with source := some f, lensLight := none })
          (x.call { c with source := some g, lensLight := none }) := by
  unfold Sim.call
  have e : x.scene { c with source := some fun a b => s * f a b + t * g a b, lensLight := none }
      = Img.comb s t (x.scene { c with source := some f, lensLight := none })
          (x.scene { c with source := some g, lensLight := none }) := by
    unfold Sim.scene
    simp only
    cases c.sourceLight with
    | false =>
      simp only
      rw [Img.ext_iff]
      refine ⟨rfl, rfl, funext fun i => funext fun j => ?_⟩
      simp [Img.comb]
    | true =>
      cases c.lensSource with
      | false => simp only [Bool.false_eq_true, if_false]; exact sample_comb _ _ _ _ _ _ _
      | true => simp only [if_true]; exact sample_comb _ _ _ _ _ _ _
  rw [e]
  refine finish_comb x _ _ ?_ ?_ s t
  · rw [(scene_dims x _).1, (scene_dims x _).1]
  · rw [(scene_dims x _).2, (scene_dims x _).2]

/-- The image is linear in the lens light. -/
theorem C42_linear_lens_light (x : Sim) (c : SimScene) (f g : ℝ → ℝ → ℝ) (s t : ℝ) :
    x.call { c with source := none, lensLight := some fun a b => s * f a b + t * g a b }
      = Img.comb s t (x.call { c with source := none, lensLight := some f })
          (x.call { c with source := none, lensLight := some g }) := by
  unfold Sim.call
  have e : x.scene { c with source := none, lensLight := some fun a b => s * f a b + t * g a b }
      = Img.comb s t (x.scene { c with source := none, lensLight := some f })
          (x.scene { c with source := none, lensLight := some g }) := by
    unfold Sim.scene
    simp only
    cases c.addLensLight with
    | false =>
      simp only
      rw [Img.ext_iff]
      refine ⟨rfl, rfl, funext fun i => funext fun j => ?_⟩
      simp [Img.comb]
    | true =>
      simp only
      rw [sample_comb, Img.ext_iff]
      refine ⟨rfl, rfl, funext fun i => funext fun j => ?_⟩
      simp [Img.comb]
  rw [e]
  refine finish_comb x _ _ ?_ ?_ s t
  · rw [(scene_dims x _).1, (scene_dims x _).1]
  · rw [(scene_dims x _).2, (scene_dims x _).2]

/-- The image of source and lens light together is the sum of the image of the source alone and the
image of the lens light alone, whatever the switches. -/
theorem C42_superposition (x : Sim) (c : SimScene) :
    x.call c = Img.comb 1 1 (x.call { c with lensLight := none }) (x.call { c with source := none }) := by
  unfold Sim.call
  have e : x.scene c = Img.comb 1 1 (x.scene { c with lensLight := none }) (x.scene { c with source := none }) := by
    obtain ⟨rt, src, ll, psf, x0, y0, b1, b2, b3, b4⟩ := c
    unfold Sim.scene
    rw [Img.ext_iff]
    cases src <;> cases ll <;> cases b1 <;> cases b2 <;> cases b3 <;>
      refine ⟨rfl, rfl, funext fun i => funext fun j => ?_⟩ <;> simp [Img.comb]
  rw [e]
  refine finish_comb x _ _ ?_ ?_ 1 1
  · rw [(scene_dims x _).1, (scene_dims x _).1]
  · rw [(scene_dims x _).2, (scene_dims x _).2]

/-- Switching a light off is the same as not having it. -/
theorem C42_switches (x : Sim) (c : SimScene) :
    x.call { c with sourceLight := false } = x.call { c with source := none } ∧
    x.call { c with addLensLight := false } = x.call { c with lensLight := none } := by
  obtain ⟨rt, src, ll, psf, x0, y0, b1, b2, b3, b4⟩ := c
  unfold Sim.call Sim.scene
  constructor
  · cases src <;> cases b1 <;> rfl
  · cases ll <;> cases b2 <;> rfl

/-- Mean of a constant over the sub-pixels. -/
theorem mean_const {u : ℕ} (hu : u ≠ 0) (k : ℝ) :
    (∑ _a ∈ Finset.range u, ∑ _b ∈ Finset.range u, k) / ((u * u : ℕ) : ℝ) = k := by
  have : (u : ℝ) ≠ 0 := Nat.cast_ne_zero.2 hu
  simp only [Finset.sum_const, Finset.card_range, nsmul_eq_mul]
  push_cast
  field_simp

theorem directConv_const {psf mu : Img} {k : ℝ} (hs : psf.sum ≠ 0)
    (hmu : ∀ i j, i < mu.h → j < mu.w → mu.at' i j = k) {i j : ℕ} (hi : i + psf.h / 2 < mu.h)
    (hj : j + psf.w / 2 < mu.w) : directConv psf mu i j = k := by
  unfold directConv
  rw [div_eq_iff hs, Img.sum, Finset.mul_sum]
  refine Finset.sum_congr rfl fun m _ => ?_
  rw [Finset.mul_sum]
  refine Finset.sum_congr rfl fun n _ => ?_
  rw [hmu _ _ (by omega) (by omega), mul_comm]

theorem directImage_const {cfg : SimCfg} {x : Sim} (h : Sim.new lib cfg = .ok x) {psf mu : Img} {k : ℝ}
    (hpsf : cfg.psfShape = [psf.h, psf.w]) (hs : psf.sum ≠ 0)
    (hmh : mu.h = x.g.nPix.2) (hmw : mu.w = x.g.nPix.1)
    (hmu : ∀ i j, i < mu.h → j < mu.w → mu.at' i j = k) :
    Img.Same (directImage x psf mu) ⟨cfg.pixelsY, cfg.pixelsX, fun _ _ => k⟩ := by
  obtain ⟨k0, k1, l, hsh, hc, hu, hpad, hn, -⟩ := new_ok h
  rw [hpsf] at hsh
  simp only [List.cons.injEq] at hsh
  obtain ⟨rfl, rfl, -⟩ := hsh
  rw [hn] at hmh hmw
  unfold directImage
  rw [hc]
  refine ⟨rfl, rfl, fun i j hi hj => ?_⟩
  simp only at hi hj ⊢
  have e : ∀ a ∈ Finset.range cfg.upsample, ∀ b ∈ Finset.range cfg.upsample,
      directConv psf mu (i * cfg.upsample + a + psf.h / 2) (j * cfg.upsample + b + psf.w / 2) = k := by
    intro a ha b hb
    rw [Finset.mem_range] at ha hb
    have h1 : i * cfg.upsample + a < cfg.pixelsY * cfg.upsample := by
      calc i * cfg.upsample + a < (i + 1) * cfg.upsample := by rw [Nat.add_mul]; omega
        _ ≤ _ := Nat.mul_le_mul_right _ hi
    have h2 : j * cfg.upsample + b < cfg.pixelsX * cfg.upsample := by
      calc j * cfg.upsample + b < (j + 1) * cfg.upsample := by rw [Nat.add_mul]; omega
        _ ≤ _ := Nat.mul_le_mul_right _ hj
    exact directConv_const hs hmu (by omega) (by omega)
  rw [Finset.sum_congr rfl fun a ha => Finset.sum_congr rfl fun b hb => e a ha b hb]
  exact mean_const hu k

/-- A field that is constant on the padded grid, after PSF, clipping and downsampling. -/
theorem finish_const (hfast : ∀ n, n ≤ lib.fast n) {cfg : SimCfg} {x : Sim} (h : Sim.new lib cfg = .ok x)
    (pc : Bool) {psf mu : Img} {k : ℝ} (hpsf : cfg.psfShape = [psf.h, psf.w]) (hs : psf.sum ≠ 0)
    (hsq : cfg.psfMode = "fft" → cfg.pixelsX = cfg.pixelsY ∧ psf.h = psf.w)
    (hmh : mu.h = x.g.nPix.2) (hmw : mu.w = x.g.nPix.1)
    (hmu : ∀ i j, i < mu.h → j < mu.w → mu.at' i j = k) :
    Img.Same (x.finish pc psf mu) ⟨cfg.pixelsY, cfg.pixelsX, fun _ _ => k⟩ := by
  have hd := directImage_const h hpsf hs hmh hmw hmu
  obtain ⟨k0, k1, l, hsh, hc, hu, hpad, hn, -⟩ := new_ok h
  rw [hpsf] at hsh
  simp only [List.cons.injEq] at hsh
  obtain ⟨rfl, rfl, -⟩ := hsh
  have plain : Img.Same ((mu.slice x.g.psfPad.2 (x.cfg.pixelsY * x.cfg.upsample + x.g.psfPad.2) x.g.psfPad.1
      (x.cfg.pixelsX * x.cfg.upsample + x.g.psfPad.1)).avgPool x.cfg.upsample)
      ⟨cfg.pixelsY, cfg.pixelsX, fun _ _ => k⟩ := by
    rw [hc, hpad]
    rw [hn] at hmh hmw
    refine (avgPool_slice_same hu mu (by omega) (by omega) (fun _ _ => k) ?_).trans ?_
    · intro i j hi hj
      exact hmu _ _ (by omega) (by omega)
    · exact ⟨rfl, rfl, fun i j _ _ => mean_const hu k⟩
  by_cases hconv : pc = true ∧ ¬(psf.h = 1 ∧ psf.w = 1)
  · rw [hconv.1]
    by_cases hf : cfg.psfMode = "fft"
    · obtain ⟨s1, s2⟩ := hsq hf
      exact (C40_fft_partial h hf psf mu hpsf hconv.2 hmh hmw (by rw [s2])
        (by rw [hn, s1, s2]; exact hfast _) (by rw [hn, s1, s2]; exact hfast _)).trans hd
    · by_cases hd2 : cfg.psfMode = "conv2d"
      · exact (C40_conv2d h hd2 psf mu hpsf hconv.2 hmh hmw).trans hd
      · unfold Sim.finish Sim.convolve
        simp only [if_neg hconv.2, if_true, hc, if_neg hf, if_neg hd2]
        rw [hc] at plain
        exact plain
  · have : (if psf.h = 1 ∧ psf.w = 1 then false else pc) = false := by
      split
      · rfl
      · rename_i h1
        rw [not_and_or, not_not] at hconv
        rcases hconv with h | h
        · simpa using h
        · exact absurd h h1
    unfold Sim.finish
    simp only [this]
    exact plain

/-- The quadrature of a constant is the constant, if the weights are those of an integration rule on
`[-1, 1]`. -/
theorem sample_const {cfg : SimCfg} {x : Sim} (h : Sim.new lib cfg = .ok x)
    (hw : ∀ q, ((lib.legendre q).map Prod.snd).sum = 2) (k x0 y0 : ℝ) {i j : ℕ} (hi : i < x.g.nPix.2)
    (hj : j < x.g.nPix.1) : (x.g.sample (fun _ _ => k) x0 y0).at' i j = k := by
  rw [sample_at h _ _ _ hi hj]
  have hq : ∀ q p X Y, quad (lib.legendre q) (fun _ _ => k) p X Y = k := by
    intro q p X Y
    have := quad_smul (lib.legendre q) (fun _ _ => (1 : ℝ)) k p X Y
    simp only [mul_one] at this
    rw [this]
    have h1 := C07_weights_sum (lib.legendre q) (hw q) p X Y
    have h2 : quad (lib.legendre q) (fun _ _ => (1 : ℝ)) p X Y = 1 := by
      have h3 : quad (lib.legendre q) (fun _ _ => (1 : ℝ)) p X Y
          = ((quadGrid (lib.legendre q) p X Y).map fun t => t.2.2).sum := by
        unfold quad quadIntegrate
        simp only [List.zipWith_map_left, List.zipWith_map_right, List.zipWith_self, one_mul]
      rw [h3, h1]
    rw [h2, mul_one]
  split
  · split
    · exact hq _ _ _ _
    · rfl
  · rfl

/-- The claim about uniform brightness. -/
def C42_uniform_statement : Prop :=
  ∀ (lib : SimLib) (_ : ∀ n, n ≤ lib.fast n) (_ : ∀ q, ((lib.legendre q).map Prod.snd).sum = 2)
    (cfg : SimCfg) (x : Sim), Sim.new lib cfg = .ok x → ∀ (c : SimScene) (k : ℝ),
    cfg.psfShape = [c.psf.h, c.psf.w] → c.psf.sum ≠ 0 → c.source = some (fun _ _ => k) → c.sourceLight = true →
    c.lensLight = none → Img.Same (x.call c) ⟨cfg.pixelsY, cfg.pixelsX, fun _ _ => k⟩

/-- A source of uniform brightness behind any lens gives a uniform image, up to the border, for any PSF
that does not sum to zero, any upsampling, any quadrature level.  Missing: FFT convolution of images or
PSFs that are not square. -/
theorem C42_uniform_partial (hfast : ∀ n, n ≤ lib.fast n) (hw : ∀ q, ((lib.legendre q).map Prod.snd).sum = 2)
    {cfg : SimCfg} {x : Sim} (h : Sim.new lib cfg = .ok x) (c : SimScene) (k : ℝ)
    (hpsf : cfg.psfShape = [c.psf.h, c.psf.w]) (hs : c.psf.sum ≠ 0) (hsrc : c.source = some (fun _ _ => k))
    (hon : c.sourceLight = true) (hll : c.lensLight = none)
    (hsq : cfg.psfMode = "fft" → cfg.pixelsX = cfg.pixelsY ∧ c.psf.h = c.psf.w) :
    Img.Same (x.call c) ⟨cfg.pixelsY, cfg.pixelsX, fun _ _ => k⟩ := by
  have e : x.scene c = x.g.sample (fun _ _ => k) c.x0 c.y0 := by
    unfold Sim.scene
    rw [hsrc, hon, hll]
    simp
  unfold Sim.call
  rw [e]
  exact finish_const hfast h _ hpsf hs hsq rfl rfl fun i j hi hj => sample_const h hw k _ _ hi hj

/-- Without a PSF (or with one of a single pixel) a pixel of the image is the mean over its sub-pixels of the
quadrature of the lensed source plus the lens light, at sub-pixels centred on the pixel; the pixels are
centred on the field centre, whatever PSF shape was declared. -/
theorem C42_pixels {cfg : SimCfg} {x : Sim} (h : Sim.new lib cfg = .ok x) (c : SimScene)
    (hc : c.psfConvolve = false ∨ (c.psf.h = 1 ∧ c.psf.w = 1)) {i j : ℕ} (hi : i < cfg.pixelsY) (hj : j < cfg.pixelsX) :
    let u := cfg.upsample
    let p := cfg.pixelscale / u
    let rule := match cfg.quadLevel with
      | some q => if 1 < q then lib.legendre q else [(0, 2)]
      | none => [(0, 2)]
    let B := fun X Y => (match c.source with
        | some f => if c.sourceLight then (if c.lensSource then f (c.raytrace X Y).1 (c.raytrace X Y).2 else f X Y) else 0
        | none => 0)
      + (match c.lensLight with
        | some f => if c.addLensLight then f X Y else 0
        | none => 0)
    let X := fun b : ℕ => ((j : ℝ) - ((cfg.pixelsX : ℝ) - 1) / 2) * cfg.pixelscale + ((b : ℝ) - ((u : ℝ) - 1) / 2) * p
    let Y := fun a : ℕ => ((i : ℝ) - ((cfg.pixelsY : ℝ) - 1) / 2) * cfg.pixelscale + ((a : ℝ) - ((u : ℝ) - 1) / 2) * p
    (x.call c).at' i j = (∑ a ∈ Finset.range u, ∑ b ∈ Finset.range u, (rule.map fun r => (rule.map fun s =>
      B (X b + p * s.1 / 2 + c.x0) (Y a + p * r.1 / 2 + c.y0) * (r.2 * s.2 / 4)).sum).sum) / (u * u : ℕ) := by
  intro u p rule B X Y
  have hs := fun f x0 y0 i j => sample_at (i := i) (j := j) h f x0 y0
  obtain ⟨k0, k1, l, hsh, hcfg, hu, hpad, hn, -⟩ := new_ok h
  have hu' : (cfg.upsample : ℝ) ≠ 0 := Nat.cast_ne_zero.2 hu
  -- one sample of the padded grid
  have hsample : ∀ (f : ℝ → ℝ → ℝ) (a b : ℕ), i * u + a < cfg.pixelsY * u → j * u + b < cfg.pixelsX * u →
      (x.g.sample f c.x0 c.y0).at' (i * u + a + k0 / 2) (j * u + b + k1 / 2)
        = (rule.map fun r => (rule.map fun s =>
          f (X b + p * s.1 / 2 + c.x0) (Y a + p * r.1 / 2 + c.y0) * (r.2 * s.2 / 4)).sum).sum := by
    intro f a b ha hb
    rw [hs f c.x0 c.y0 _ _ (by rw [hn]; change _ < cfg.pixelsY * u + k0 / 2 * 2; omega)
      (by rw [hn]; change _ < cfg.pixelsX * u + k1 / 2 * 2; omega)]
    have eX : (((j * u + b + k1 / 2 : ℕ) : ℝ) - ((x.g.nPix.1 : ℝ) - 1) / 2) * (cfg.pixelscale / cfg.upsample) = X b := by
      simp only [hn, X, u, p]; push_cast; field_simp; ring
    have eY : (((i * u + a + k0 / 2 : ℕ) : ℝ) - ((x.g.nPix.2 : ℝ) - 1) / 2) * (cfg.pixelscale / cfg.upsample) = Y a := by
      simp only [hn, Y, u, p]; push_cast; field_simp; ring
    rw [eX, eY]
    simp only [rule]
    cases cfg.quadLevel with
    | none => simp; norm_num
    | some q =>
      simp only [gt_iff_lt]
      split
      · rw [quad_eq_sum]
      · simp; norm_num
  -- the scene
  have hscene : ∀ a b : ℕ, i * u + a < cfg.pixelsY * u → j * u + b < cfg.pixelsX * u →
      (x.scene c).at' (i * u + a + k0 / 2) (j * u + b + k1 / 2)
        = (rule.map fun r => (rule.map fun s =>
          B (X b + p * s.1 / 2 + c.x0) (Y a + p * r.1 / 2 + c.y0) * (r.2 * s.2 / 4)).sum).sum := by
    intro a b ha hb
    have hz : (0 : ℝ) = (rule.map fun r => (rule.map fun s => (fun _ _ : ℝ => (0 : ℝ))
        (X b + p * s.1 / 2 + c.x0) (Y a + p * r.1 / 2 + c.y0) * (r.2 * s.2 / 4)).sum).sum := by simp
    have hadd : ∀ f g : ℝ → ℝ → ℝ,
        (rule.map fun r => (rule.map fun s =>
          (f (X b + p * s.1 / 2 + c.x0) (Y a + p * r.1 / 2 + c.y0)
            + g (X b + p * s.1 / 2 + c.x0) (Y a + p * r.1 / 2 + c.y0)) * (r.2 * s.2 / 4)).sum).sum
        = (rule.map fun r => (rule.map fun s =>
          f (X b + p * s.1 / 2 + c.x0) (Y a + p * r.1 / 2 + c.y0) * (r.2 * s.2 / 4)).sum).sum
        + (rule.map fun r => (rule.map fun s =>
          g (X b + p * s.1 / 2 + c.x0) (Y a + p * r.1 / 2 + c.y0) * (r.2 * s.2 / 4)).sum).sum := by
      intro f g
      simp only [add_mul, List.sum_map_add]
    simp only [B]
    rw [hadd (fun X Y => match c.source with
        | some f => if c.sourceLight then (if c.lensSource then f (c.raytrace X Y).1 (c.raytrace X Y).2 else f X Y) else 0
        | none => 0) (fun X Y => match c.lensLight with
        | some f => if c.addLensLight then f X Y else 0
        | none => 0)]
    have h1 : ∀ (mu : Img) (v : ℝ), mu.at' (i * u + a + k0 / 2) (j * u + b + k1 / 2) = v →
        (match c.lensLight, c.addLensLight with
          | some f, true => ({ mu with at' := fun i j => mu.at' i j + (x.g.sample f c.x0 c.y0).at' i j } : Img)
          | _, _ => mu).at' (i * u + a + k0 / 2) (j * u + b + k1 / 2)
        = v + (rule.map fun r => (rule.map fun s =>
          (match c.lensLight with
            | some f => if c.addLensLight then f (X b + p * s.1 / 2 + c.x0) (Y a + p * r.1 / 2 + c.y0) else 0
            | none => 0) * (r.2 * s.2 / 4)).sum).sum := by
      intro mu v hv
      cases c.lensLight with
      | none => simp [hv]
      | some f =>
        cases c.addLensLight with
        | false => simp [hv]
        | true => simp only [if_true]; rw [hv, hsample f a b ha hb]
    unfold Sim.scene
    simp only
    refine h1 _ _ ?_
    cases c.source with
    | none => simp
    | some f =>
      cases c.sourceLight with
      | false => simp
      | true =>
        cases c.lensSource with
        | true => simp only [if_true]; rw [hsample _ a b ha hb]
        | false => simp only [if_true, Bool.false_eq_true, if_false]; rw [hsample _ a b ha hb]
  have hfin : x.call c = ((x.scene c).slice x.g.psfPad.2 (x.cfg.pixelsY * x.cfg.upsample + x.g.psfPad.2) x.g.psfPad.1
      (x.cfg.pixelsX * x.cfg.upsample + x.g.psfPad.1)).avgPool x.cfg.upsample := by
    unfold Sim.call Sim.finish
    rcases hc with hc | hc
    · simp [hc]
    · simp [hc]
  rw [hfin, hcfg, hpad]
  have hd := scene_dims x c
  rw [hn] at hd
  simp only at hd
  have hk0 : min (k0 / 2) (x.scene c).h = k0 / 2 := by rw [hd.1]; omega
  have hk1 : min (k1 / 2) (x.scene c).w = k1 / 2 := by rw [hd.2]; omega
  simp only [Img.avgPool, Img.slice, hk0, hk1]
  congr 1
  refine Finset.sum_congr rfl fun a ha => Finset.sum_congr rfl fun b hb => ?_
  rw [Finset.mem_range] at ha hb
  refine hscene a b ?_ ?_
  · calc i * u + a < (i + 1) * u := by rw [Nat.add_mul]; omega
      _ ≤ _ := Nat.mul_le_mul_right _ hi
  · calc j * u + b < (j + 1) * u := by rw [Nat.add_mul]; omega
      _ ≤ _ := Nat.mul_le_mul_right _ hj

/-- Two columns and three rows of size two, a declared PSF of three by five, field centre `(10, 20)`, a lens that
moves everything by one in `x`: the last pixel of the first row sees the source at `(12, 18)`. -/
example : ∃ x : Sim, Sim.new lib ⟨"fft", [3, 5], 2, 2, 3, 1, none⟩ = .ok x ∧
    (x.call ⟨fun a b => (a + 1, b), some (fun a b => a + 100 * b), some (fun a _ => 1000000 * a), ⟨3, 5, fun _ _ => 1⟩,
      10, 20, true, true, true, false⟩).at' 0 1 = 11001812 := by
  refine ⟨_, rfl, ?_⟩
  have h := C42_pixels (lib := lib) (cfg := ⟨"fft", [3, 5], 2, 2, 3, 1, none⟩) (x := _) rfl
    ⟨fun a b => (a + 1, b), some (fun a b => a + 100 * b), some (fun a _ => 1000000 * a), ⟨3, 5, fun _ _ => 1⟩,
      10, 20, true, true, true, false⟩ (.inl rfl) (i := 0) (j := 1) (by norm_num) (by norm_num)
  refine h.trans ?_
  norm_num

/-! ### Where the FFT mode goes wrong -/

/-- A library in which 13 is not fast (as in scipy) and with the one-point rule for every level. -/
noncomputable def lib14 : SimLib := ⟨fun n => if n = 13 then 14 else n, fun _ => [(0, 2)]⟩

/-- One column of 13 pixels, a PSF of 1 by 13 that is one in its centre. -/
noncomputable def cfg14 : SimCfg := ⟨"fft", [1, 13], 1, 1, 13, 1, none⟩

/-- Uniform brightness one, no deflection, and that PSF. -/
noncomputable def scene14 : SimScene :=
  ⟨fun a b => (a, b), some (fun _ _ => 1), none, ⟨1, 13, fun _ j => if j = 6 then 1 else 0⟩, 0, 0, true, true, true, true⟩

theorem lib14_fast (n : ℕ) : n ≤ lib14.fast n := by
  simp only [lib14]; split <;> omega

theorem psf14_sum : scene14.psf.sum = 1 := by
  simp [Img.sum, scene14]

/-- In `fft` mode pixel 7 is dark: the rolling of the array by the half widths of the PSF is done with
rows and columns exchanged, so that padding enters the image. -/
theorem dark14 {x : Sim} (h : Sim.new lib14 cfg14 = .ok x) : (x.call scene14).at' 7 0 = 0 := by
  obtain ⟨k0, k1, l, hsh, hc, hu, hpad, hn, hss, -⟩ := new_ok h
  simp only [cfg14, List.cons.injEq] at hsh
  obtain ⟨rfl, rfl, -⟩ := hsh
  have hn' : x.g.nPix = (13, 13) := by rw [hn]; rfl
  have hs' : x.g.s = (14, 14) := by rw [hss, hn']; simp [lib14]
  have hd := scene_dims x scene14
  rw [hn'] at hd
  set mu := x.scene scene14 with hmu
  set F := irfft2 (fun u v => rfft2 mu 14 14 u v * rfft2 (scene14.psf.div scene14.psf.sum) 14 14 u v) 14 14 with hF
  have hconv : x.convolve scene14.psf mu = (F.roll (-(6 : ℕ)) (-(0 : ℕ))).slice 0 14 0 14 := by
    unfold Sim.convolve
    simp only [hc, hs', hpad]
    rfl
  have hzero : F.at' 13 6 = 0 := by
    rw [hF, irfft2_mul_rfft2 (by norm_num) (by norm_num) _ _ (by norm_num) (by norm_num)]
    refine Finset.sum_eq_zero fun a ha => Finset.sum_eq_zero fun b _ => ?_
    rw [Finset.mem_range] at ha
    rcases Nat.eq_zero_or_pos a with rfl | ha0
    · have : mu.per 14 14 ((13 : ℕ) - (0 : ℕ)) ((6 : ℕ) - (b : ℕ)) = 0 := by
        unfold Img.per Img.pad
        rw [if_neg]
        rw [hd.1]
        norm_num
      rw [this, mul_zero]
    · have : (scene14.psf.div scene14.psf.sum).pad a b = 0 := by
        unfold Img.pad
        rw [if_neg]
        intro hh
        have : a < 1 := hh.1
        omega
      rw [this, zero_mul]
  unfold Sim.call Sim.finish
  rw [← hmu]
  have hp : (if scene14.psf.h = 1 ∧ scene14.psf.w = 1 then false else scene14.psfConvolve) = true := by
    simp [scene14]
  simp only [hp, if_true, hconv, hc, hpad]
  have e : ∀ y : Img, ((y.slice (1 / 2) (cfg14.pixelsY * cfg14.upsample + 1 / 2) (13 / 2)
      (cfg14.pixelsX * cfg14.upsample + 13 / 2)).avgPool cfg14.upsample).at' 7 0
        = y.at' (7 + min 0 y.h) (0 + min 6 y.w) := by
    intro y
    simp [Img.avgPool, Img.slice, cfg14]
  rw [e]
  have e2 : ∀ y : Img, y.h = 14 → y.w = 14 → ((y.roll (-(6 : ℕ)) (-(0 : ℕ))).slice 0 14 0 14).at'
      (7 + min 0 ((y.roll (-(6 : ℕ)) (-(0 : ℕ))).slice 0 14 0 14).h)
      (0 + min 6 ((y.roll (-(6 : ℕ)) (-(0 : ℕ))).slice 0 14 0 14).w) = y.at' 13 6 := by
    intro y h1 h2
    simp [Img.slice, Img.roll, h1, h2]
  rw [e2 F (irfft2_h _ _ _) (irfft2_w _ _ _), hzero]

theorem new14 (m : String) : ∃ x, Sim.new lib14 { cfg14 with psfMode := m } = .ok x := ⟨_, rfl⟩

theorem light14 {x : Sim} (h : Sim.new lib14 { cfg14 with psfMode := "conv2d" } = .ok x) :
    Img.Same (x.call scene14) ⟨13, 1, fun _ _ => 1⟩ :=
  C42_uniform_partial lib14_fast (fun q => by simp [lib14]) h scene14 1 rfl
    (by rw [psf14_sum]; norm_num) rfl rfl rfl (fun h => absurd h (by simp))

/-- The two modes differ. -/
theorem C40_fails : ¬ C40_statement := by
  intro h
  obtain ⟨x, hx⟩ := new14 "fft"
  obtain ⟨y, hy⟩ := new14 "conv2d"
  have hs := (h lib14 lib14_fast cfg14 x y hx hy scene14 rfl).trans (light14 hy)
  have := hs.2.2 7 0 (by rw [hs.1]; norm_num) (by rw [hs.2.1]; norm_num)
  rw [dark14 hx] at this
  norm_num at this

/-- A uniform field does not always give a uniform image. -/
theorem C42_uniform_fails : ¬ C42_uniform_statement := by
  intro h
  obtain ⟨x, hx⟩ := new14 "fft"
  have hs := h lib14 lib14_fast (fun q => by simp [lib14]) cfg14 x hx scene14 1 rfl
    (by rw [psf14_sum]; norm_num) rfl rfl rfl
  have := hs.2.2 7 0 (by rw [hs.1]; simp [cfg14]) (by rw [hs.2.1]; simp [cfg14])
  rw [dark14 hx] at this
  norm_num at this

/-- A misspelt mode is accepted by the constructor and the image is then returned unconvolved. -/
theorem C42_unknown_mode {cfg : SimCfg} {x : Sim} (h : Sim.new lib cfg = .ok x) (h1 : cfg.psfMode ≠ "fft")
    (h2 : cfg.psfMode ≠ "conv2d") (c : SimScene) : x.call c = x.call { c with psfConvolve := false } := by
  obtain ⟨-, -, -, -, hc, -⟩ := new_ok h
  have : ∀ psf mu, x.convolve psf mu = mu := by
    intro psf mu
    unfold Sim.convolve
    rw [hc, if_neg h1, if_neg h2]
  unfold Sim.call Sim.finish
  simp only [this, ite_self]
  rfl

/-- The settings of the witness in the two modes: pixel 7 of a uniformly bright column. -/
example : ∃ x y, Sim.new lib14 { cfg14 with psfMode := "fft" } = .ok x ∧
    Sim.new lib14 { cfg14 with psfMode := "conv2d" } = .ok y ∧
    (x.call scene14).at' 7 0 = 0 ∧ (y.call scene14).at' 7 0 = 1 := by
  obtain ⟨x, hx⟩ := new14 "fft"
  obtain ⟨y, hy⟩ := new14 "conv2d"
  exact ⟨x, y, hx, hy, dark14 hx, (light14 hy).2.2 7 0 (by rw [(light14 hy).1]; norm_num)
    (by rw [(light14 hy).2.1]; norm_num)⟩

/-- A source that is a combination of two. -/
example : ∃ y, Sim.new lib14 { cfg14 with psfMode := "conv2d" } = .ok y ∧
    (y.call { scene14 with source := some fun _ _ => 2 * 1 + 3 * 1 }).at' 7 0 = 5 := by
  obtain ⟨y, hy⟩ := new14 "conv2d"
  refine ⟨y, hy, ?_⟩
  have h := C42_linear_source y scene14 (fun _ _ => 1) (fun _ _ => 1) 2 3
  have h1 := (light14 hy).2.2 7 0 (by rw [(light14 hy).1]; norm_num) (by rw [(light14 hy).2.1]; norm_num)
  have h2 : ({ scene14 with source := some fun _ _ => 2 * 1 + 3 * 1 } : SimScene)
      = { scene14 with source := some fun _ _ => 2 * 1 + 3 * 1, lensLight := none } := rfl
  have h3 : ({ scene14 with source := some fun _ _ => 1, lensLight := none } : SimScene) = scene14 := rfl
  rw [h2, h, h3]
  simp only [Img.comb]
  rw [h1]
  norm_num

/-- `psf_mode="FFT"`: accepted, no convolution. -/
example : ∃ x, Sim.new lib14 { cfg14 with psfMode := "FFT" } = .ok x ∧
    x.call scene14 = x.call { scene14 with psfConvolve := false } := by
  obtain ⟨x, hx⟩ := new14 "FFT"
  exact ⟨x, hx, C42_unknown_mode hx (by simp) (by simp) scene14⟩

end Caustics

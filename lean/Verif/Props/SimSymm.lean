import Verif.Lemmas.SimSymm
import Verif.Props.LensImage

/-! C127: the simulated image moves, mirrors and turns with the scene. -/

namespace Caustics

variable {lib : SimLib}

/-! ### Scenes -/

/-- The scene moved by `(dx, dy)`: every object and the centre of the field. -/
noncomputable def SimScene.shift (c : SimScene) (dx dy : ℝ) : SimScene :=
  { c with
    raytrace := fun a b => ((c.raytrace (a - dx) (b - dy)).1 + dx, (c.raytrace (a - dx) (b - dy)).2 + dy)
    source := c.source.map fun f a b => f (a - dx) (b - dy)
    lensLight := c.lensLight.map fun f a b => f (a - dx) (b - dy)
    x0 := c.x0 + dx
    y0 := c.y0 + dy }

/-- The scene seen in a mirror: left and right exchanged about the centre of the field, in the PSF as
well. -/
noncomputable def SimScene.mirrorX (c : SimScene) : SimScene :=
  { c with
    raytrace := fun a b => (2 * c.x0 - (c.raytrace (2 * c.x0 - a) b).1, (c.raytrace (2 * c.x0 - a) b).2)
    source := c.source.map fun f a b => f (2 * c.x0 - a) b
    lensLight := c.lensLight.map fun f a b => f (2 * c.x0 - a) b
    psf := c.psf.mirrorX }

/-- The scene upside down. -/
noncomputable def SimScene.mirrorY (c : SimScene) : SimScene :=
  { c with
    raytrace := fun a b => ((c.raytrace a (2 * c.y0 - b)).1, 2 * c.y0 - (c.raytrace a (2 * c.y0 - b)).2)
    source := c.source.map fun f a b => f a (2 * c.y0 - b)
    lensLight := c.lensLight.map fun f a b => f a (2 * c.y0 - b)
    psf := c.psf.mirrorY }

/-- The scene with the two axes exchanged. -/
noncomputable def SimScene.swap (c : SimScene) : SimScene :=
  { c with
    raytrace := fun a b => ((c.raytrace b a).2, (c.raytrace b a).1)
    source := c.source.map fun f a b => f b a
    lensLight := c.lensLight.map fun f a b => f b a
    psf := c.psf.transpose
    x0 := c.y0
    y0 := c.x0 }

theorem sky_shift (c : SimScene) (dx dy a b : ℝ) : (c.shift dx dy).skyAt a b = c.skyAt (a - dx) (b - dy) := by
  unfold SimScene.skyAt SimScene.shift
  simp only
  congr 1
  · cases c.source with
    | none => rfl
    | some f => cases c.sourceLight <;> simp
  · cases c.lensLight with
    | none => rfl
    | some f => cases c.addLensLight <;> simp

theorem sky_mirrorX (c : SimScene) (a b : ℝ) : c.mirrorX.skyAt a b = c.skyAt (2 * c.x0 - a) b := by
  unfold SimScene.skyAt SimScene.mirrorX
  simp only
  congr 1
  · cases c.source with
    | none => rfl
    | some f => cases c.sourceLight <;> simp
  · cases c.lensLight with
    | none => rfl
    | some f => cases c.addLensLight <;> simp

theorem sky_mirrorY (c : SimScene) (a b : ℝ) : c.mirrorY.skyAt a b = c.skyAt a (2 * c.y0 - b) := by
  unfold SimScene.skyAt SimScene.mirrorY
  simp only
  congr 1
  · cases c.source with
    | none => rfl
    | some f => cases c.sourceLight <;> simp
  · cases c.lensLight with
    | none => rfl
    | some f => cases c.addLensLight <;> simp

theorem sky_swap (c : SimScene) (a b : ℝ) : c.swap.skyAt a b = c.skyAt b a := by
  unfold SimScene.skyAt SimScene.swap
  simp only
  congr 1
  · cases c.source with
    | none => rfl
    | some f => cases c.sourceLight <;> simp
  · cases c.lensLight with
    | none => rfl
    | some f => cases c.addLensLight <;> simp

/-! ### Moving -/

theorem sample_congr (g : SimGrid) {f f' : ℝ → ℝ → ℝ} {x0 y0 x0' y0' : ℝ}
    (h : ∀ a b, f' (a + x0') (b + y0') = f (a + x0) (b + y0)) : g.sample f' x0' y0' = g.sample f x0 y0 := by
  unfold SimGrid.sample
  simp only [h]

/-- Moving the lens, the source, the lens light and the centre of the field together changes no pixel, in
every mode and for every configuration. -/
theorem C127_shift (x : Sim) (c : SimScene) (dx dy : ℝ) : x.call (c.shift dx dy) = x.call c := by
  have hs : x.scene (c.shift dx dy) = x.scene c := by
    have e : ∀ f : ℝ → ℝ → ℝ, x.g.sample (fun a b => f (a - dx) (b - dy)) (c.x0 + dx) (c.y0 + dy) =
        x.g.sample f c.x0 c.y0 := fun f => sample_congr _ fun a b => by
      rw [show a + (c.x0 + dx) - dx = a + c.x0 by ring, show b + (c.y0 + dy) - dy = b + c.y0 by ring]
    unfold Sim.scene SimScene.shift
    obtain ⟨rt, src, ll, psf, x0, y0, b1, b2, b3, b4⟩ := c
    simp only at *
    have e2 := fun f : ℝ → ℝ → ℝ => e fun a b => f (rt a b).1 (rt a b).2
    cases src <;> cases ll <;> cases b1 <;> cases b2 <;> cases b3 <;>
      simp only [Option.map_none, Option.map_some, e, e2, add_sub_cancel_right, if_true, Bool.false_eq_true, if_false]
  unfold Sim.call
  rw [hs]
  rfl

/-! ### Mirroring -/

/-- The rules of the library do not distinguish left from right (true of Gauss-Legendre rules). -/
def SymLib (lib : SimLib) : Prop := ∀ q, SymRule (lib.legendre q)

theorem scene_mirrorX (hl : SymLib lib) {cfg : SimCfg} {x : Sim} (h : Sim.new lib cfg = .ok x) (c : SimScene)
    {i j : ℕ} (hi : i < x.g.nPix.2) (hj : j < x.g.nPix.1) :
    (x.scene c.mirrorX).at' i j = (x.scene c).at' i (x.g.nPix.1 - 1 - j) := by
  rw [scene_at h _ hi hj, scene_at h c hi (by omega)]
  have ej : (((x.g.nPix.1 - 1 - j : ℕ) : ℝ) - ((x.g.nPix.1 : ℝ) - 1) / 2) = -((j : ℝ) - ((x.g.nPix.1 : ℝ) - 1) / 2) := by
    rw [Nat.sub_sub, Nat.cast_sub (by omega)]; push_cast; ring
  have es : (fun a b => c.mirrorX.skyAt (a + c.mirrorX.x0) (b + c.mirrorX.y0)) =
      fun a b => (fun a b => c.skyAt (a + c.x0) (b + c.y0)) (-a) b := by
    funext a b
    rw [sky_mirrorX]
    simp only [SimScene.mirrorX]
    rw [show 2 * c.x0 - (a + c.x0) = -a + c.x0 by ring]
  rw [es, ej, neg_mul]
  unfold pixelValue
  split
  · split
    · exact quad_mirror_x (hl _) (fun a b => c.skyAt (a + c.x0) (b + c.y0)) _ _ _
    · rfl
  · rfl

theorem scene_mirrorY (hl : SymLib lib) {cfg : SimCfg} {x : Sim} (h : Sim.new lib cfg = .ok x) (c : SimScene)
    {i j : ℕ} (hi : i < x.g.nPix.2) (hj : j < x.g.nPix.1) :
    (x.scene c.mirrorY).at' i j = (x.scene c).at' (x.g.nPix.2 - 1 - i) j := by
  rw [scene_at h _ hi hj, scene_at h c (by omega) hj]
  have ej : (((x.g.nPix.2 - 1 - i : ℕ) : ℝ) - ((x.g.nPix.2 : ℝ) - 1) / 2) = -((i : ℝ) - ((x.g.nPix.2 : ℝ) - 1) / 2) := by
    rw [Nat.sub_sub, Nat.cast_sub (by omega)]; push_cast; ring
  have es : (fun a b => c.mirrorY.skyAt (a + c.mirrorY.x0) (b + c.mirrorY.y0)) =
      fun a b => (fun a b => c.skyAt (a + c.x0) (b + c.y0)) a (-b) := by
    funext a b
    rw [sky_mirrorY]
    simp only [SimScene.mirrorY]
    rw [show 2 * c.y0 - (b + c.y0) = -b + c.y0 by ring]
  rw [es, ej, neg_mul]
  unfold pixelValue
  split
  · split
    · exact quad_mirror_y (hl _) (fun a b => c.skyAt (a + c.x0) (b + c.y0)) _ _ _
    · rfl
  · rfl

/-- The values after the PSF, of a mirrored scene: the column `j'` is the opposite one when the PSF has an
odd number of columns, the one before when it has an even number. -/
theorem blurred_mirrorX (hl : SymLib lib) {cfg : SimCfg} {x : Sim} (h : Sim.new lib cfg = .ok x) (c : SimScene)
    {i j : ℕ} (hi : c.psf.h / 2 ≤ i) (hi2 : i + c.psf.h / 2 < x.g.nPix.2)
    (hj : c.psf.w / 2 ≤ j) (hj2 : j + c.psf.w / 2 < x.g.nPix.1) (hodd : c.psf.w % 2 = 1) :
    x.blurred c.mirrorX i j = x.blurred c i (x.g.nPix.1 - 1 - j) := by
  obtain ⟨dh, dw⟩ := scene_dims x c
  unfold Sim.blurred
  have e : (c.mirrorX.psfConvolve = true ∧ ¬(c.mirrorX.psf.h = 1 ∧ c.mirrorX.psf.w = 1)) =
      (c.psfConvolve = true ∧ ¬(c.psf.h = 1 ∧ c.psf.w = 1)) := rfl
  simp only [e]
  by_cases hc : c.psfConvolve = true ∧ ¬(c.psf.h = 1 ∧ c.psf.w = 1)
  · simp only [if_pos hc]
    refine directConv_mirrorX hj (by rw [dw]; exact hj2) (by rw [dw]; omega) hi (by rw [dh]; exact hi2) ?_
    intro a b ha hb
    rw [dw]
    exact scene_mirrorX hl h c (dh ▸ ha) (dw ▸ hb)
  · simp only [if_neg hc]
    exact scene_mirrorX hl h c (by omega) (by omega)

theorem blurred_mirrorY (hl : SymLib lib) {cfg : SimCfg} {x : Sim} (h : Sim.new lib cfg = .ok x) (c : SimScene)
    {i j : ℕ} (hi : c.psf.h / 2 ≤ i) (hi2 : i + c.psf.h / 2 < x.g.nPix.2)
    (hj : c.psf.w / 2 ≤ j) (hj2 : j + c.psf.w / 2 < x.g.nPix.1) (hodd : c.psf.h % 2 = 1) :
    x.blurred c.mirrorY i j = x.blurred c (x.g.nPix.2 - 1 - i) j := by
  obtain ⟨dh, dw⟩ := scene_dims x c
  unfold Sim.blurred
  have e : (c.mirrorY.psfConvolve = true ∧ ¬(c.mirrorY.psf.h = 1 ∧ c.mirrorY.psf.w = 1)) =
      (c.psfConvolve = true ∧ ¬(c.psf.h = 1 ∧ c.psf.w = 1)) := rfl
  simp only [e]
  by_cases hc : c.psfConvolve = true ∧ ¬(c.psf.h = 1 ∧ c.psf.w = 1)
  · simp only [if_pos hc]
    refine directConv_mirrorY hi (by rw [dh]; exact hi2) (by rw [dh]; omega) hj (by rw [dw]; exact hj2) ?_
    intro a b ha hb
    rw [dh]
    exact scene_mirrorY hl h c (dh ▸ ha) (dw ▸ hb)
  · simp only [if_neg hc]
    exact scene_mirrorY hl h c (by omega) (by omega)

theorem lt_block {i u a n : ℕ} (hi : i < n) (ha : a < u) : i * u + a < n * u := by
  calc i * u + a < i * u + u := by omega
    _ = (i + 1) * u := by ring
    _ ≤ n * u := Nat.mul_le_mul_right _ hi

theorem block_reflect {n u j b : ℕ} (hj : j < n) (hb : b < u) :
    (n - 1 - j) * u + (u - 1 - b) = n * u - 1 - (j * u + b) := by
  obtain ⟨d, rfl⟩ : ∃ d, n = j + 1 + d := ⟨n - (j + 1), by omega⟩
  have e1 : j + 1 + d - 1 - j = d := by omega
  have e2 : (j + 1 + d) * u = d * u + j * u + u := by ring
  rw [e1, e2]
  omega

/-- The claim: for every configuration and every PSF, mirroring the scene mirrors the image. -/
def C127_statement : Prop :=
  ∀ (lib : SimLib) (_ : SymLib lib) (_ : ∀ n, n ≤ lib.fast n) (cfg : SimCfg) (x : Sim), Sim.new lib cfg = .ok x →
    ∀ c : SimScene, cfg.psfShape = [c.psf.h, c.psf.w] →
      Img.Same (x.call c.mirrorX) (x.call c).mirrorX ∧ Img.Same (x.call c.mirrorY) (x.call c).mirrorY

/-- A scene mirrored left to right gives the image mirrored left to right.  Missing: a PSF with an even
number of columns (see `C127_fails_even`), and `psf_mode="fft"` with images or PSFs that are not square. -/
theorem C127_mirror_x_partial (hl : SymLib lib) {cfg : SimCfg} {x : Sim} (h : Sim.new lib cfg = .ok x)
    (c : SimScene) (hpsf : cfg.psfShape = [c.psf.h, c.psf.w]) (hm : DirectMode lib cfg c.psf)
    (hodd : c.psf.w % 2 = 1) : Img.Same (x.call c.mirrorX) (x.call c).mirrorX := by
  have e1 := call_direct h c hpsf hm
  have e2 := call_direct h c.mirrorX hpsf hm
  obtain ⟨k0, k1, l, hs, -, hu, -, hn, -⟩ := new_ok h
  rw [hpsf] at hs
  simp only [List.cons.injEq] at hs
  obtain ⟨rfl, rfl, -⟩ := hs
  refine e2.trans ⟨e1.1.symm, e1.2.1.symm, ?_⟩
  intro i j hi hj
  simp only at hi hj
  simp only [Img.mirrorX]
  rw [e1.2.1, e1.2.2 i _ (by rw [e1.1]; exact hi) (by rw [e1.2.1]; simp only; omega)]
  simp only
  congr 1
  refine Finset.sum_congr rfl fun a ha => ?_
  rw [← Finset.sum_range_reflect]
  refine Finset.sum_congr rfl fun b hb => ?_
  rw [Finset.mem_range] at ha hb
  have b1 := lt_block hi ha
  have b2 := lt_block hj (show cfg.upsample - 1 - b < cfg.upsample by omega)
  have b3 := block_reflect hj (show cfg.upsample - 1 - b < cfg.upsample by omega)
  have b4 : cfg.upsample - 1 - (cfg.upsample - 1 - b) = b := by omega
  rw [b4] at b3
  rw [b3]
  change x.blurred c.mirrorX (i * cfg.upsample + a + c.psf.h / 2) (j * cfg.upsample + (cfg.upsample - 1 - b) + c.psf.w / 2) = _
  rw [blurred_mirrorX hl h c (by omega) (by rw [hn]; simp only; omega) (by omega) (by rw [hn]; simp only; omega) hodd]
  congr 1
  rw [hn]
  simp only
  omega

/-- A scene turned upside down gives the image upside down.  Missing: a PSF with an even number of rows,
and `psf_mode="fft"` with images or PSFs that are not square. -/
theorem C127_mirror_y_partial (hl : SymLib lib) {cfg : SimCfg} {x : Sim} (h : Sim.new lib cfg = .ok x)
    (c : SimScene) (hpsf : cfg.psfShape = [c.psf.h, c.psf.w]) (hm : DirectMode lib cfg c.psf)
    (hodd : c.psf.h % 2 = 1) : Img.Same (x.call c.mirrorY) (x.call c).mirrorY := by
  have e1 := call_direct h c hpsf hm
  have e2 := call_direct h c.mirrorY hpsf hm
  obtain ⟨k0, k1, l, hs, -, hu, -, hn, -⟩ := new_ok h
  rw [hpsf] at hs
  simp only [List.cons.injEq] at hs
  obtain ⟨rfl, rfl, -⟩ := hs
  refine e2.trans ⟨e1.1.symm, e1.2.1.symm, ?_⟩
  intro i j hi hj
  simp only at hi hj
  simp only [Img.mirrorY]
  rw [e1.1, e1.2.2 _ j (by rw [e1.1]; simp only; omega) (by rw [e1.2.1]; exact hj)]
  simp only
  congr 1
  rw [← Finset.sum_range_reflect]
  refine Finset.sum_congr rfl fun a ha => ?_
  refine Finset.sum_congr rfl fun b hb => ?_
  rw [Finset.mem_range] at ha hb
  have b1 := lt_block hj hb
  have b2 := lt_block hi (show cfg.upsample - 1 - a < cfg.upsample by omega)
  have b3 := block_reflect hi (show cfg.upsample - 1 - a < cfg.upsample by omega)
  have b4 : cfg.upsample - 1 - (cfg.upsample - 1 - a) = a := by omega
  rw [b4] at b3
  rw [b3]
  change x.blurred c.mirrorY (i * cfg.upsample + (cfg.upsample - 1 - a) + c.psf.h / 2) (j * cfg.upsample + b + c.psf.w / 2) = _
  rw [blurred_mirrorY hl h c (by omega) (by rw [hn]; simp only; omega) (by omega) (by rw [hn]; simp only; omega) hodd]
  congr 1
  rw [hn]
  simp only
  omega

/-! ### Exchanging the axes -/

/-- The settings with the two axes exchanged. -/
noncomputable def SimCfg.swap (cfg : SimCfg) (psf : Img) : SimCfg :=
  { cfg with pixelsX := cfg.pixelsY, pixelsY := cfg.pixelsX, psfShape := [psf.w, psf.h] }

/-- Exchanging the two axes of the scene, of the PSF and of the pixel counts transposes the image, for PSFs
of every size.  Missing: `psf_mode="fft"` with images or PSFs that are not square. -/
theorem C127_swap_partial {cfg : SimCfg} {x y : Sim} (h : Sim.new lib cfg = .ok x) (c : SimScene)
    (hpsf : cfg.psfShape = [c.psf.h, c.psf.w]) (hy : Sim.new lib (cfg.swap c.psf) = .ok y)
    (hm : DirectMode lib cfg c.psf) : Img.Same (y.call c.swap) (x.call c).transpose := by
  have hm' : DirectMode lib (cfg.swap c.psf) c.swap.psf := by
    rcases hm with hm | ⟨h1, h2, h3, h4⟩
    · exact .inl hm
    · exact .inr ⟨h1, h2, h3.symm, h4.symm⟩
  have e1 := call_direct h c hpsf hm
  have e2 := call_direct hy c.swap rfl hm'
  obtain ⟨k0, k1, l, hs, -, hu, -, hn, -⟩ := new_ok h
  rw [hpsf] at hs
  simp only [List.cons.injEq] at hs
  obtain ⟨rfl, rfl, -⟩ := hs
  obtain ⟨k0, k1, l, hs, -, -, -, hn', -⟩ := new_ok hy
  simp only [SimCfg.swap, List.cons.injEq] at hs
  obtain ⟨rfl, rfl, -⟩ := hs
  simp only [SimCfg.swap] at hn'
  have n1 : y.g.nPix.1 = x.g.nPix.2 := by rw [hn, hn']
  have n2 : y.g.nPix.2 = x.g.nPix.1 := by rw [hn, hn']
  have key : ∀ a b, a < x.g.nPix.1 → b < x.g.nPix.2 → (y.scene c.swap).at' a b = (x.scene c).at' b a := by
    intro a b ha hb
    rw [scene_at h c hb ha, scene_at hy c.swap (by omega) (by omega)]
    have es : (fun a b => c.swap.skyAt (a + c.swap.x0) (b + c.swap.y0)) =
        fun a b => (fun a b => c.skyAt (a + c.x0) (b + c.y0)) b a := by
      funext a b
      rw [sky_swap]
      rfl
    rw [es, n1, n2]
    unfold pixelValue
    simp only [SimCfg.swap]
    split
    · split
      · exact quad_swap _ _ _ _ _
      · rfl
    · rfl
  refine e2.trans ⟨e1.2.1.symm, e1.1.symm, ?_⟩
  intro i j hi hj
  change i < cfg.pixelsX at hi
  change j < cfg.pixelsY at hj
  simp only [Img.transpose]
  rw [e1.2.2 j i (by rw [e1.1]; exact hj) (by rw [e1.2.1]; exact hi)]
  change (∑ a ∈ Finset.range cfg.upsample, ∑ b ∈ Finset.range cfg.upsample,
    y.blurred c.swap (i * cfg.upsample + a + c.psf.w / 2) (j * cfg.upsample + b + c.psf.h / 2)) / _ = _
  simp only [SimCfg.swap]
  congr 1
  rw [Finset.sum_comm]
  refine Finset.sum_congr rfl fun b hb => Finset.sum_congr rfl fun a ha => ?_
  rw [Finset.mem_range] at ha hb
  have b1 := lt_block hi ha
  have b2 := lt_block hj hb
  obtain ⟨dh, dw⟩ := scene_dims x c
  unfold Sim.blurred
  have e : (c.swap.psfConvolve = true ∧ ¬(c.swap.psf.h = 1 ∧ c.swap.psf.w = 1)) =
      (c.psfConvolve = true ∧ ¬(c.psf.h = 1 ∧ c.psf.w = 1)) := by
    simp only [SimScene.swap, Img.transpose, and_comm]
  simp only [e]
  by_cases hc : c.psfConvolve = true ∧ ¬(c.psf.h = 1 ∧ c.psf.w = 1)
  · simp only [if_pos hc]
    refine directConv_transpose (by omega) (by rw [dw, hn]; simp only; omega) (by omega) (by rw [dh, hn]; simp only; omega) ?_
    intro a b ha hb
    exact key a b (dw ▸ ha) (dh ▸ hb)
  · simp only [if_neg hc]
    exact key _ _ (by rw [hn]; simp only; omega) (by rw [hn]; simp only; omega)

/-! ### Turning -/

/-- The scene turned by a quarter turn about the centre of the field, from the x axis towards the y axis. -/
noncomputable def SimScene.turn (c : SimScene) : SimScene := c.swap.mirrorX

theorem Img.Same.mirrorX {a b : Img} (h : a.Same b) : a.mirrorX.Same b.mirrorX :=
  ⟨h.1, h.2.1, fun i j hi hj => by
    simp only [Img.mirrorX] at *
    rw [h.2.1]
    exact h.2.2 i _ hi (by rw [h.2.1] at *; omega)⟩

/-- What the quarter turn does to the light: `(u, v)` from the centre is moved to `(-v, u)`. -/
theorem turn_sky (c : SimScene) (u v : ℝ) :
    c.turn.skyAt (c.turn.x0 - v) (c.turn.y0 + u) = c.skyAt (c.x0 + u) (c.y0 + v) := by
  unfold SimScene.turn
  rw [sky_mirrorX, sky_swap]
  simp only [SimScene.mirrorX, SimScene.swap]
  congr 1
  ring

/-- A scene turned by 90 degrees gives the image turned by 90 degrees.  Missing: as for the mirror images. -/
theorem C127_turn_partial (hl : SymLib lib) {cfg : SimCfg} {x y : Sim} (h : Sim.new lib cfg = .ok x) (c : SimScene)
    (hpsf : cfg.psfShape = [c.psf.h, c.psf.w]) (hy : Sim.new lib (cfg.swap c.psf) = .ok y)
    (hm : DirectMode lib cfg c.psf) (hodd : c.psf.h % 2 = 1) :
    Img.Same (y.call c.turn) (x.call c).transpose.mirrorX := by
  have hm' : DirectMode lib (cfg.swap c.psf) c.swap.psf := by
    rcases hm with hm | ⟨h1, h2, h3, h4⟩
    · exact .inl hm
    · exact .inr ⟨h1, h2, h3.symm, h4.symm⟩
  exact (C127_mirror_x_partial hl hy c.swap rfl hm' hodd).trans (C127_swap_partial h c hpsf hy hm).mirrorX

/-! ### Symmetric scenes -/

/-- The light of a scene that is its own mirror image gives an image that is its own mirror image. -/
theorem C127_symmetric_partial (hl : SymLib lib) {cfg : SimCfg} {x : Sim} (h : Sim.new lib cfg = .ok x)
    (c : SimScene) (hpsf : cfg.psfShape = [c.psf.h, c.psf.w]) (hm : DirectMode lib cfg c.psf)
    (hodd : c.psf.w % 2 = 1) (hp : ∀ i j, i < c.psf.h → j < c.psf.w → c.psf.at' i (c.psf.w - 1 - j) = c.psf.at' i j)
    (hsky : ∀ a b, c.skyAt (c.x0 - a) b = c.skyAt (c.x0 + a) b) {i j : ℕ} (hi : i < cfg.pixelsY) (hj : j < cfg.pixelsX) :
    (x.call c).at' i (cfg.pixelsX - 1 - j) = (x.call c).at' i j := by
  have e1 := call_direct h c hpsf hm
  have e2 := call_direct h c.mirrorX hpsf hm
  have key := C127_mirror_x_partial hl h c hpsf hm hodd
  have k1 := key.2.2 i j (by rw [e2.1]; exact hi) (by rw [e2.2.1]; exact hj)
  simp only [Img.mirrorX] at k1
  rw [e1.2.1] at k1
  simp only at k1
  rw [← k1, e2.2.2 i j (by rw [e2.1]; exact hi) (by rw [e2.2.1]; exact hj),
    e1.2.2 i j (by rw [e1.1]; exact hi) (by rw [e1.2.1]; exact hj)]
  simp only
  congr 1
  obtain ⟨k0, k1, l, hs, -, hu, -, hn, -⟩ := new_ok h
  rw [hpsf] at hs
  simp only [List.cons.injEq] at hs
  obtain ⟨rfl, rfl, -⟩ := hs
  obtain ⟨dh, dw⟩ := scene_dims x c
  have hsc : ∀ a b, a < x.g.nPix.2 → b < x.g.nPix.1 → (x.scene c.mirrorX).at' a b = (x.scene c).at' a b := by
    intro a b ha hb
    rw [scene_at h _ ha hb, scene_at h c ha hb]
    have es : (fun a b => c.mirrorX.skyAt (a + c.mirrorX.x0) (b + c.mirrorX.y0)) =
        fun a b => c.skyAt (a + c.x0) (b + c.y0) := by
      funext a b
      rw [sky_mirrorX]
      simp only [SimScene.mirrorX]
      rw [show 2 * c.x0 - (a + c.x0) = c.x0 - a by ring, hsky, add_comm]
    rw [es]
  refine Finset.sum_congr rfl fun a ha => Finset.sum_congr rfl fun b hb => ?_
  rw [Finset.mem_range] at ha hb
  have b1 := lt_block hi ha
  have b2 := lt_block hj hb
  change x.blurred c.mirrorX (i * cfg.upsample + a + c.psf.h / 2) (j * cfg.upsample + b + c.psf.w / 2) = _
  unfold Sim.blurred
  have e : (c.mirrorX.psfConvolve = true ∧ ¬(c.mirrorX.psf.h = 1 ∧ c.mirrorX.psf.w = 1)) =
      (c.psfConvolve = true ∧ ¬(c.psf.h = 1 ∧ c.psf.w = 1)) := rfl
  simp only [e]
  split
  · unfold directConv
    have : c.mirrorX.psf = c.psf.mirrorX := rfl
    rw [this, Img.sum_mirrorX]
    simp only [Img.mirrorX]
    congr 1
    refine Finset.sum_congr rfl fun m hm => Finset.sum_congr rfl fun n hn' => ?_
    rw [Finset.mem_range] at hm hn'
    rw [hp m n hm hn', hsc _ _ (by rw [hn]; simp only; omega) (by rw [hn]; simp only; omega)]
  · exact hsc _ _ (by rw [hn]; simp only; omega) (by rw [hn]; simp only; omega)

/-- A point-like deflector and a round source in the centre of the field, a PSF of one row and three columns:
the outer pixels of the first row are equal. -/
example (hl : SymLib lib) : ∃ x, Sim.new lib ⟨"conv2d", [1, 3], 1, 4, 2, 2, some 3⟩ = .ok x ∧
    (x.call ⟨fun a b => (a - a / (a ^ 2 + b ^ 2), b - b / (a ^ 2 + b ^ 2)), some fun a b => Real.exp (-(a ^ 2 + b ^ 2)), none,
      ⟨1, 3, fun _ j => if j = 1 then 2 else 1⟩, 0, 0, true, true, true, true⟩).at' 0 3 =
    (x.call ⟨fun a b => (a - a / (a ^ 2 + b ^ 2), b - b / (a ^ 2 + b ^ 2)), some fun a b => Real.exp (-(a ^ 2 + b ^ 2)), none,
      ⟨1, 3, fun _ j => if j = 1 then 2 else 1⟩, 0, 0, true, true, true, true⟩).at' 0 0 := by
  refine ⟨_, rfl, ?_⟩
  refine C127_symmetric_partial (lib := lib) hl (cfg := ⟨"conv2d", [1, 3], 1, 4, 2, 2, some 3⟩) rfl _ rfl (.inl rfl) (by norm_num)
    ?_ ?_ (i := 0) (j := 0) (by norm_num) (by norm_num)
  · intro i j _ hj
    simp only at hj ⊢
    have : j = 0 ∨ j = 1 ∨ j = 2 := by omega
    rcases this with rfl | rfl | rfl <;> norm_num
  · intro a b
    simp only [SimScene.skyAt, if_true, add_zero]
    congr 1
    rw [show (0 - a) ^ 2 = (0 + a) ^ 2 by ring]
    ring

/-! ### PSFs with an even number of columns -/

/-- With an even number of columns in the PSF the image of the mirrored scene is the mirrored image moved by one
pixel of the sampling grid: what is seen in column `j` is what had been seen in column `pixels_x - 2 - j`, not
`pixels_x - 1 - j`. -/
theorem C127_even (hl : SymLib lib) {cfg : SimCfg} {x : Sim} (h : Sim.new lib cfg = .ok x)
    (c : SimScene) (hpsf : cfg.psfShape = [c.psf.h, c.psf.w]) (hm : DirectMode lib cfg c.psf) (hu1 : cfg.upsample = 1)
    (hconv : c.psfConvolve = true) (heven : c.psf.w % 2 = 0) (hw : 0 < c.psf.w) {i j : ℕ} (hi : i < cfg.pixelsY)
    (hj : j + 2 ≤ cfg.pixelsX) :
    (x.call c.mirrorX).at' i j = (x.call c).at' i (cfg.pixelsX - 2 - j) := by
  have e1 := call_direct h c hpsf hm
  have e2 := call_direct h c.mirrorX hpsf hm
  obtain ⟨k0, k1, l, hs, -, hu, -, hn, -⟩ := new_ok h
  rw [hpsf] at hs
  simp only [List.cons.injEq] at hs
  obtain ⟨rfl, rfl, -⟩ := hs
  rw [hu1] at hn
  rw [e1.2.2 i _ (by rw [e1.1]; exact hi) (by rw [e1.2.1]; simp only; omega),
    e2.2.2 i j (by rw [e2.1]; exact hi) (by rw [e2.2.1]; simp only; omega)]
  simp only [hu1, Finset.sum_range_one, mul_one, add_zero]
  congr 1
  obtain ⟨dh, dw⟩ := scene_dims x c
  rw [hn] at dh dw
  simp only at dh dw
  have hc : c.psfConvolve = true ∧ ¬(c.psf.h = 1 ∧ c.psf.w = 1) := ⟨hconv, by omega⟩
  have hc' : c.mirrorX.psfConvolve = true ∧ ¬(c.mirrorX.psf.h = 1 ∧ c.mirrorX.psf.w = 1) := hc
  unfold Sim.blurred
  rw [if_pos hc, if_pos hc']
  change directConv c.psf.mirrorX (x.scene c.mirrorX) (i + c.psf.h / 2) (j + c.psf.w / 2) = _
  refine directConv_mirrorX (by omega) (by omega) (by omega) (by omega) (by omega) ?_
  intro a b ha hb
  have := scene_mirrorX hl h c (i := a) (j := b) (by rw [hn]; simp only; omega) (by rw [hn]; simp only; omega)
  rw [this, dw, hn]

/-- A symmetric two-pixel PSF on an image of one pixel, brightness rising to the right. -/
noncomputable def sceneEven : SimScene :=
  ⟨fun a b => (a, b), some (fun a _ => a), none, ⟨1, 2, fun _ _ => 1⟩, 0, 0, true, true, true, true⟩

theorem even_pixel {x : Sim} (h : Sim.new lib14 ⟨"conv2d", [1, 2], 1, 1, 1, 1, none⟩ = .ok x) :
    (x.call sceneEven).at' 0 0 = 1 / 2 ∧ (x.call sceneEven.mirrorX).at' 0 0 = -(1 / 2) := by
  have e1 := call_direct h sceneEven rfl (.inl rfl)
  have e2 := call_direct h sceneEven.mirrorX rfl (.inl rfl)
  obtain ⟨k0, k1, l, hs, -, hu, -, hn, -⟩ := new_ok h
  simp only [List.cons.injEq] at hs
  obtain ⟨rfl, rfl, -⟩ := hs
  have hn' : x.g.nPix = (3, 1) := by rw [hn]; rfl
  have key : ∀ (c : SimScene) (s : ℝ), c.psf.h = 1 → c.psf.w = 2 → (∀ i j, c.psf.at' i j = 1) → c.x0 = 0 → c.y0 = 0 →
      (∀ a b, c.skyAt a b = s * a) → c.psfConvolve = true → x.blurred c 0 1 = s / 2 := by
    intro c s h1 h2 h3 h4 h5 h6 h7
    unfold Sim.blurred
    rw [if_pos ⟨h7, by omega⟩]
    unfold directConv Img.sum
    rw [h1, h2]
    simp only [Finset.sum_range_succ, Finset.sum_range_zero, h3]
    norm_num
    rw [scene_at h c (by rw [hn']; norm_num) (by rw [hn']; norm_num),
      scene_at h c (by rw [hn']; norm_num) (by rw [hn']; norm_num)]
    simp only [pixelValue, h6, h4, hn']
    norm_num
  constructor
  · rw [e1.2.2 0 0 (by rw [e1.1]; norm_num) (by rw [e1.2.1]; norm_num)]
    simp only [Finset.sum_range_one]
    have := key sceneEven 1 rfl rfl (fun _ _ => rfl) rfl rfl (fun a b => by simp [SimScene.skyAt, sceneEven]) rfl
    change x.blurred sceneEven 0 1 / _ = _
    rw [this]
    norm_num
  · rw [e2.2.2 0 0 (by rw [e2.1]; norm_num) (by rw [e2.2.1]; norm_num)]
    simp only [Finset.sum_range_one]
    have := key sceneEven.mirrorX (-1) rfl rfl (fun _ _ => rfl) rfl rfl
      (fun a b => by rw [sky_mirrorX]; simp [SimScene.skyAt, sceneEven]) rfl
    change x.blurred sceneEven.mirrorX 0 1 / _ = _
    rw [this]
    norm_num

theorem symLib14 : SymLib lib14 := by
  intro q
  simp [SymRule, lib14]

/-- A PSF with an even number of columns, though symmetric, moves the light by half a pixel of the sampling grid:
an image of one pixel, which is its own mirror image, changes when the scene is mirrored. -/
theorem C127_fails_even : ∃ (cfg : SimCfg) (x : Sim) (c : SimScene), Sim.new lib14 cfg = .ok x ∧
    cfg.psfMode = "conv2d" ∧ cfg.psfShape = [c.psf.h, c.psf.w] ∧ c.mirrorX.psf.Same c.psf ∧
    ¬ Img.Same (x.call c.mirrorX) (x.call c).mirrorX := by
  refine ⟨⟨"conv2d", [1, 2], 1, 1, 1, 1, none⟩, _, sceneEven, rfl, rfl, rfl, ⟨rfl, rfl, fun _ _ _ _ => rfl⟩, ?_⟩
  intro hs
  have hp := even_pixel (x := _) rfl
  have e1 := call_direct (lib := lib14) (cfg := ⟨"conv2d", [1, 2], 1, 1, 1, 1, none⟩) (x := _) rfl sceneEven rfl (.inl rfl)
  have e2 := call_direct (lib := lib14) (cfg := ⟨"conv2d", [1, 2], 1, 1, 1, 1, none⟩) (x := _) rfl sceneEven.mirrorX rfl (.inl rfl)
  have := hs.2.2 0 0 (by rw [e2.1]; norm_num) (by rw [e2.2.1]; norm_num)
  simp only [Img.mirrorX] at this
  rw [e1.2.1] at this
  simp only [Nat.sub_self] at this
  rw [hp.1, hp.2] at this
  norm_num at this

theorem C127_fails : ¬ C127_statement := by
  intro h
  obtain ⟨cfg, x, c, hx, -, hp, -, hn⟩ := C127_fails_even
  exact hn (h lib14 symLib14 lib14_fast cfg x hx c hp).1

/-- In `fft` mode an image that is not square is not even symmetric when the lens, the source and the PSF are: of a
uniformly bright column of 13 pixels, pixel 7 is dark and the opposite pixel 5 is not. -/
theorem C127_fails_fft : ∃ x, Sim.new lib14 cfg14 = .ok x ∧ scene14.mirrorY.skyAt = scene14.skyAt ∧
    scene14.mirrorY.psf.Same scene14.psf ∧ (x.call scene14).at' 7 0 = 0 ∧ (x.call scene14).at' 5 0 = 1 := by
  obtain ⟨x, h⟩ := new14 "fft"
  change Sim.new lib14 cfg14 = .ok x at h
  refine ⟨x, h, ?_, ⟨rfl, rfl, fun _ _ _ _ => rfl⟩, dark14 h, ?_⟩
  · funext a b
    rw [sky_mirrorY]
    simp [SimScene.skyAt, scene14]
  obtain ⟨k0, k1, l, hsh, hc, hu, hpad, hn, hss, -⟩ := new_ok h
  simp only [cfg14, List.cons.injEq] at hsh
  obtain ⟨rfl, rfl, -⟩ := hsh
  have hn' : x.g.nPix = (13, 13) := by rw [hn]; rfl
  have hs' : x.g.s = (14, 14) := by rw [hss, hn']; simp [lib14]
  have hd := scene_dims x scene14
  have hone : (x.scene scene14).at' 11 0 = 1 := by
    rw [scene_at h scene14 (by rw [hn']; norm_num) (by rw [hn']; norm_num)]
    simp [pixelValue, cfg14, SimScene.skyAt, scene14]
  rw [hn'] at hd
  set mu := x.scene scene14 with hmu
  set F := irfft2 (fun u v => rfft2 mu 14 14 u v * rfft2 (scene14.psf.div scene14.psf.sum) 14 14 u v) 14 14 with hF
  have hconv : x.convolve scene14.psf mu = (F.roll (-(6 : ℕ)) (-(0 : ℕ))).slice 0 14 0 14 := by
    unfold Sim.convolve
    simp only [hc, hs', hpad]
    rfl
  have hval : F.at' 11 6 = 1 := by
    rw [hF, irfft2_mul_rfft2 (by norm_num) (by norm_num) _ _ (by norm_num) (by norm_num)]
    rw [Finset.sum_eq_single 0, Finset.sum_eq_single 6]
    · have h1 : mu.per 14 14 ((11 : ℕ) - (0 : ℕ)) ((6 : ℕ) - (6 : ℕ)) = 1 := by
        unfold Img.per Img.pad
        rw [if_pos (by rw [hd.1, hd.2]; norm_num)]
        norm_num
        exact hone
      have h2 : (scene14.psf.div scene14.psf.sum).pad 0 6 = 1 := by
        rw [psf14_sum]
        simp [Img.pad, Img.div, scene14]
      rw [h1, h2, mul_one]
    · intro b _ hb
      have : (scene14.psf.div scene14.psf.sum).pad 0 b = 0 := by
        simp [Img.pad, Img.div, scene14, hb]
      rw [this, zero_mul]
    · intro h6; simp at h6
    · intro a _ ha
      refine Finset.sum_eq_zero fun b _ => ?_
      have : (scene14.psf.div scene14.psf.sum).pad a b = 0 := by
        unfold Img.pad
        rw [if_neg]
        intro hh
        have : a < 1 := hh.1
        omega
      rw [this, zero_mul]
    · intro h0; simp at h0
  unfold Sim.call Sim.finish
  rw [← hmu]
  have hp : (if scene14.psf.h = 1 ∧ scene14.psf.w = 1 then false else scene14.psfConvolve) = true := by
    simp [scene14]
  simp only [hp, if_true, hconv, hc, hpad]
  have e : ∀ y : Img, ((y.slice (1 / 2) (cfg14.pixelsY * cfg14.upsample + 1 / 2) (13 / 2)
      (cfg14.pixelsX * cfg14.upsample + 13 / 2)).avgPool cfg14.upsample).at' 5 0
        = y.at' (5 + min 0 y.h) (0 + min 6 y.w) := by
    intro y
    simp [Img.avgPool, Img.slice, cfg14]
  rw [e]
  have e2 : ∀ y : Img, y.h = 14 → y.w = 14 → ((y.roll (-(6 : ℕ)) (-(0 : ℕ))).slice 0 14 0 14).at'
      (5 + min 0 ((y.roll (-(6 : ℕ)) (-(0 : ℕ))).slice 0 14 0 14).h)
      (0 + min 6 ((y.roll (-(6 : ℕ)) (-(0 : ℕ))).slice 0 14 0 14).w) = y.at' 11 6 := by
    intro y h1 h2
    simp [Img.slice, Img.roll, h1, h2]
  rw [e2 F (irfft2_h _ _ _) (irfft2_w _ _ _), hval]

/-- A scene of two columns and three rows with an oblique lens, moved to another field. -/
example (x : Sim) (c : SimScene) : (x.call (c.shift 3 (-7))).at' 1 0 = (x.call c).at' 1 0 := by
  rw [C127_shift]

/-- Quarter turn of an image of two columns and three rows: the top left pixel is at the
bottom left after the turn (rows are numbered upwards). -/
example (hl : SymLib lib) (c : SimScene) (h3 : c.psf.h = 3) (h5 : c.psf.w = 4) :
    ∃ x y, Sim.new lib ⟨"conv2d", [3, 4], 1, 2, 3, 2, some 2⟩ = .ok x ∧
      Sim.new lib ⟨"conv2d", [4, 3], 1, 3, 2, 2, some 2⟩ = .ok y ∧ (y.call c.turn).at' 0 0 = (x.call c).at' 2 0 := by
  have hy : (⟨"conv2d", [4, 3], 1, 3, 2, 2, some 2⟩ : SimCfg) = SimCfg.swap ⟨"conv2d", [3, 4], 1, 2, 3, 2, some 2⟩ c.psf := by
    simp [SimCfg.swap, h3, h5]
  obtain ⟨x, hx⟩ : ∃ x, Sim.new lib ⟨"conv2d", [3, 4], 1, 2, 3, 2, some 2⟩ = .ok x := ⟨_, rfl⟩
  obtain ⟨y, hy'⟩ : ∃ y, Sim.new lib ⟨"conv2d", [4, 3], 1, 3, 2, 2, some 2⟩ = .ok y := ⟨_, rfl⟩
  refine ⟨x, y, hx, hy', ?_⟩
  have e0 := call_direct hx c (by simp [h3, h5]) (.inl rfl)
  have e := C127_turn_partial hl hx c (by simp [h3, h5]) (hy ▸ hy') (.inl rfl) (by omega)
  have := e.2.2 0 0 (by rw [e.1]; simp only [Img.mirrorX, Img.transpose]; rw [e0.2.1]; norm_num)
    (by rw [e.2.1]; simp only [Img.mirrorX, Img.transpose]; rw [e0.1]; norm_num)
  refine this.trans ?_
  simp only [Img.mirrorX, Img.transpose]
  rw [e0.1]
  rfl

end Caustics

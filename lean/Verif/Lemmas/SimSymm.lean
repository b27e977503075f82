import Verif.Props.LensSource

/-! Reflections of the pixel grid, of the quadrature and of the convolution with the PSF. -/

namespace Caustics

variable {lib : SimLib}

/-- A quadrature rule that does not distinguish left from right, as the Gauss-Legendre rules. -/
def SymRule (rule : List (ℝ × ℝ)) : Prop := (rule.map fun r => (-r.1, r.2)).Perm rule

theorem SymRule.sum_eq {rule : List (ℝ × ℝ)} (h : SymRule rule) (f : ℝ → ℝ → ℝ) :
    (rule.map fun r => f r.1 r.2).sum = (rule.map fun r => f (-r.1) r.2).sum := by
  have := (h.map fun r : ℝ × ℝ => f r.1 r.2).sum_eq
  rw [List.map_map] at this
  exact this.symm

theorem quad_mirror_x {rule : List (ℝ × ℝ)} (h : SymRule rule) (F : ℝ → ℝ → ℝ) (p X Y : ℝ) :
    quad rule (fun a b => F (-a) b) p X Y = quad rule F p (-X) Y := by
  rw [quad_eq_sum, quad_eq_sum]
  congr 1
  refine List.map_congr_left fun r _ => ?_
  rw [h.sum_eq fun s w => F (-(X + p * s / 2)) (Y + p * r.1 / 2) * (r.2 * w / 4)]
  congr 1
  refine List.map_congr_left fun s _ => ?_
  rw [show -(X + p * -s.1 / 2) = -X + p * s.1 / 2 by ring]

theorem quad_mirror_y {rule : List (ℝ × ℝ)} (h : SymRule rule) (F : ℝ → ℝ → ℝ) (p X Y : ℝ) :
    quad rule (fun a b => F a (-b)) p X Y = quad rule F p X (-Y) := by
  rw [quad_eq_sum, quad_eq_sum]
  rw [h.sum_eq fun r w => (rule.map fun s => F (X + p * s.1 / 2) (-(Y + p * r / 2)) * (w * s.2 / 4)).sum]
  congr 1
  refine List.map_congr_left fun r _ => ?_
  congr 1
  refine List.map_congr_left fun s _ => ?_
  rw [show -(Y + p * -r.1 / 2) = -Y + p * r.1 / 2 by ring]

theorem list_sum_comm {A B : Type*} (l : List A) (m : List B) (f : A → B → ℝ) :
    (l.map fun a => (m.map fun b => f a b).sum).sum = (m.map fun b => (l.map fun a => f a b).sum).sum := by
  induction l with
  | nil => simp
  | cons a l ih => simp [ih, List.sum_map_add]

theorem quad_swap (rule : List (ℝ × ℝ)) (F : ℝ → ℝ → ℝ) (p X Y : ℝ) :
    quad rule (fun a b => F b a) p X Y = quad rule F p Y X := by
  rw [quad_eq_sum, quad_eq_sum, list_sum_comm]
  congr 1
  refine List.map_congr_left fun r _ => ?_
  congr 1
  refine List.map_congr_left fun s _ => ?_
  ring

/-! ### Operations on images -/

/-- Columns in the opposite order. -/
def Img.mirrorX (x : Img) : Img := ⟨x.h, x.w, fun i j => x.at' i (x.w - 1 - j)⟩

/-- Rows in the opposite order. -/
def Img.mirrorY (x : Img) : Img := ⟨x.h, x.w, fun i j => x.at' (x.h - 1 - i) j⟩

/-- Rows and columns exchanged. -/
def Img.transpose (x : Img) : Img := ⟨x.w, x.h, fun i j => x.at' j i⟩

theorem Img.sum_mirrorX (x : Img) : x.mirrorX.sum = x.sum := by
  unfold Img.sum Img.mirrorX
  exact Finset.sum_congr rfl fun i _ => Finset.sum_range_reflect (fun j => x.at' i j) x.w

theorem Img.sum_mirrorY (x : Img) : x.mirrorY.sum = x.sum := by
  unfold Img.sum Img.mirrorY
  exact Finset.sum_range_reflect (fun i => ∑ j ∈ Finset.range x.w, x.at' i j) x.h

theorem Img.sum_transpose (x : Img) : x.transpose.sum = x.sum := by
  unfold Img.sum Img.transpose
  exact Finset.sum_comm

theorem directConv_mirrorX {psf mu mu' : Img} {i j j' : ℕ} (hj : psf.w / 2 ≤ j) (hj2 : j + psf.w / 2 < mu.w)
    (hj' : j' + (2 * (psf.w / 2) + 1) = mu.w - 1 - j + psf.w)
    (hi : psf.h / 2 ≤ i) (hi2 : i + psf.h / 2 < mu.h)
    (h : ∀ a b, a < mu.h → b < mu.w → mu'.at' a b = mu.at' a (mu.w - 1 - b)) :
    directConv psf.mirrorX mu' i j = directConv psf mu i j' := by
  unfold directConv
  rw [Img.sum_mirrorX]
  simp only [Img.mirrorX]
  congr 1
  refine Finset.sum_congr rfl fun m hm => ?_
  rw [← Finset.sum_range_reflect]
  refine Finset.sum_congr rfl fun n hn => ?_
  rw [Finset.mem_range] at hm hn
  rw [h _ _ (by omega) (by omega)]
  congr 2
  · omega
  · omega

theorem directConv_mirrorY {psf mu mu' : Img} {i j i' : ℕ} (hi : psf.h / 2 ≤ i) (hi2 : i + psf.h / 2 < mu.h)
    (hi' : i' + (2 * (psf.h / 2) + 1) = mu.h - 1 - i + psf.h)
    (hj : psf.w / 2 ≤ j) (hj2 : j + psf.w / 2 < mu.w)
    (h : ∀ a b, a < mu.h → b < mu.w → mu'.at' a b = mu.at' (mu.h - 1 - a) b) :
    directConv psf.mirrorY mu' i j = directConv psf mu i' j := by
  unfold directConv
  rw [Img.sum_mirrorY]
  simp only [Img.mirrorY]
  congr 1
  rw [← Finset.sum_range_reflect]
  refine Finset.sum_congr rfl fun m hm => ?_
  refine Finset.sum_congr rfl fun n hn => ?_
  rw [Finset.mem_range] at hm hn
  rw [h _ _ (by omega) (by omega)]
  congr 2
  · omega
  · omega

theorem directConv_transpose {psf mu mu' : Img} {i j : ℕ} (hi : psf.w / 2 ≤ i) (hi2 : i + psf.w / 2 < mu.w)
    (hj : psf.h / 2 ≤ j) (hj2 : j + psf.h / 2 < mu.h)
    (h : ∀ a b, a < mu.w → b < mu.h → mu'.at' a b = mu.at' b a) :
    directConv psf.transpose mu' i j = directConv psf mu j i := by
  unfold directConv
  rw [Img.sum_transpose]
  simp only [Img.transpose]
  congr 1
  rw [Finset.sum_comm]
  refine Finset.sum_congr rfl fun m hm => ?_
  refine Finset.sum_congr rfl fun n hn => ?_
  rw [Finset.mem_range] at hm hn
  rw [h _ _ (by omega) (by omega)]

/-! ### The image of a call -/

/-- The modes and shapes for which the convolution is the direct one (C40). -/
def DirectMode (lib : SimLib) (cfg : SimCfg) (psf : Img) : Prop :=
  cfg.psfMode = "conv2d" ∨ cfg.psfMode = "fft" ∧ (∀ n, n ≤ lib.fast n) ∧ cfg.pixelsX = cfg.pixelsY ∧ psf.h = psf.w

open Classical in
/-- The values on the padded grid after the PSF. -/
noncomputable def Sim.blurred (x : Sim) (c : SimScene) (i j : ℕ) : ℝ :=
  if c.psfConvolve = true ∧ ¬(c.psf.h = 1 ∧ c.psf.w = 1) then directConv c.psf (x.scene c) i j
  else (x.scene c).at' i j

theorem call_direct {cfg : SimCfg} {x : Sim} (h : Sim.new lib cfg = .ok x) (c : SimScene)
    (hpsf : cfg.psfShape = [c.psf.h, c.psf.w]) (hm : DirectMode lib cfg c.psf) :
    Img.Same (x.call c) ⟨cfg.pixelsY, cfg.pixelsX, fun i j =>
      (∑ a ∈ Finset.range cfg.upsample, ∑ b ∈ Finset.range cfg.upsample,
        x.blurred c (i * cfg.upsample + a + c.psf.h / 2) (j * cfg.upsample + b + c.psf.w / 2))
          / (cfg.upsample * cfg.upsample : ℕ)⟩ := by
  obtain ⟨k0, k1, l, hs, hxc, hu, hpad, hn, hss, -⟩ := new_ok h
  rw [hpsf] at hs
  simp only [List.cons.injEq] at hs
  obtain ⟨rfl, rfl, -⟩ := hs
  obtain ⟨dh, dw⟩ := scene_dims x c
  by_cases hconv : c.psfConvolve = true ∧ ¬(c.psf.h = 1 ∧ c.psf.w = 1)
  · have e : Img.Same (x.finish true c.psf (x.scene c)) (directImage x c.psf (x.scene c)) := by
      rcases hm with hm | ⟨hm, hf, hsq, hpsq⟩
      · exact C40_conv2d h hm c.psf _ hpsf hconv.2 dh dw
      · exact C40_fft_partial h hm c.psf _ hpsf hconv.2 dh dw (by rw [hpsq])
          (by rw [hn, hpsq, hsq]; exact hf _) (by rw [hn, hpsq, hsq]; exact hf _)
    unfold Sim.call
    rw [hconv.1]
    unfold Sim.blurred
    simp only [if_pos hconv]
    unfold directImage at e
    rw [hxc] at e
    exact e
  · have e : x.call c =
        ((x.scene c).slice x.g.psfPad.2 (x.cfg.pixelsY * x.cfg.upsample + x.g.psfPad.2) x.g.psfPad.1
          (x.cfg.pixelsX * x.cfg.upsample + x.g.psfPad.1)).avgPool x.cfg.upsample := by
      unfold Sim.call Sim.finish
      have : (if c.psf.h = 1 ∧ c.psf.w = 1 then false else c.psfConvolve) = false := by
        split
        · rfl
        · rename_i h1
          rw [not_and_or, not_not] at hconv
          rcases hconv with h | h
          · simpa using h
          · exact absurd h h1
      simp only [this]
      rfl
    rw [e, hxc, hpad]
    unfold Sim.blurred
    simp only [if_neg hconv]
    rw [hn] at dh dw
    exact avgPool_slice_same hu _ (by rw [dh]; simp only; omega) (by rw [dw]; simp only; omega)
      (fun i j => (x.scene c).at' (i + c.psf.h / 2) (j + c.psf.w / 2)) fun i j _ _ => rfl

/-- The brightness a pixel of the padded grid is given, from the light that arrives from each direction. -/
noncomputable def SimScene.skyAt (c : SimScene) (a b : ℝ) : ℝ :=
  (match c.source, c.sourceLight with
    | some f, true => if c.lensSource then f (c.raytrace a b).1 (c.raytrace a b).2 else f a b
    | _, _ => 0) +
  (match c.lensLight, c.addLensLight with
    | some f, true => f a b
    | _, _ => 0)

/-- One pixel of the padded grid: the quadrature over the pixel, or the value at its centre. -/
noncomputable def pixelValue (lib : SimLib) (quadLevel : Option ℕ) (f : ℝ → ℝ → ℝ) (p X Y : ℝ) : ℝ :=
  match quadLevel with
  | some q => if q > 1 then quad (lib.legendre q) f p X Y else f X Y
  | none => f X Y

theorem pixelValue_add (q : Option ℕ) (f g : ℝ → ℝ → ℝ) (p X Y : ℝ) :
    pixelValue lib q (fun a b => f a b + g a b) p X Y = pixelValue lib q f p X Y + pixelValue lib q g p X Y := by
  unfold pixelValue
  split
  · split
    · exact quad_add _ _ _ _ _ _
    · rfl
  · rfl

theorem quad_zero (rule : List (ℝ × ℝ)) (p X Y : ℝ) : quad rule (fun _ _ => 0) p X Y = 0 := by
  rw [quad_eq_sum]; simp

theorem pixelValue_zero (q : Option ℕ) (p X Y : ℝ) : pixelValue lib q (fun _ _ => 0) p X Y = 0 := by
  unfold pixelValue
  split
  · split
    · exact quad_zero _ _ _ _
    · rfl
  · rfl

theorem scene_at {cfg : SimCfg} {x : Sim} (h : Sim.new lib cfg = .ok x) (c : SimScene) {i j : ℕ}
    (hi : i < x.g.nPix.2) (hj : j < x.g.nPix.1) :
    (x.scene c).at' i j = pixelValue lib cfg.quadLevel (fun a b => c.skyAt (a + c.x0) (b + c.y0))
      (cfg.pixelscale / cfg.upsample)
      (((j : ℝ) - ((x.g.nPix.1 : ℝ) - 1) / 2) * (cfg.pixelscale / cfg.upsample))
      (((i : ℝ) - ((x.g.nPix.2 : ℝ) - 1) / 2) * (cfg.pixelscale / cfg.upsample)) := by
  have hS := fun f : ℝ → ℝ → ℝ => sample_at h f c.x0 c.y0 hi hj
  simp only at hS
  unfold Sim.scene SimScene.skyAt
  rw [pixelValue_add]
  have hadd : ∀ (mu : Img), (match c.lensLight, c.addLensLight with
      | some f, true => { mu with at' := fun i j => mu.at' i j + (x.g.sample f c.x0 c.y0).at' i j }
      | _, _ => mu : Img).at' i j = mu.at' i j +
        pixelValue lib cfg.quadLevel (fun a b => match c.lensLight, c.addLensLight with
          | some f, true => f (a + c.x0) (b + c.y0)
          | _, _ => 0) (cfg.pixelscale / cfg.upsample)
      (((j : ℝ) - ((x.g.nPix.1 : ℝ) - 1) / 2) * (cfg.pixelscale / cfg.upsample))
      (((i : ℝ) - ((x.g.nPix.2 : ℝ) - 1) / 2) * (cfg.pixelscale / cfg.upsample)) := by
    intro mu
    cases c.lensLight with
    | none => simp only [pixelValue_zero, add_zero]
    | some f =>
      cases c.addLensLight with
      | false => simp only [pixelValue_zero, add_zero]
      | true =>
        simp only
        rw [hS f]
        rfl
  refine (hadd _).trans ?_
  congr 1
  cases c.source with
  | none => simp only [pixelValue_zero]
  | some f =>
    cases c.sourceLight with
    | false => simp only [pixelValue_zero]
    | true =>
      cases c.lensSource with
      | false => simp only [Bool.false_eq_true, if_false]; rw [hS f]; rfl
      | true => simp only [if_true]; rw [hS fun a b => f (c.raytrace a b).1 (c.raytrace a b).2]; rfl

end Caustics

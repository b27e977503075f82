import Verif.Model.PixLight
import Verif.Props.Interp2d
import Verif.Props.Interp3d
import Verif.Props.Grid

/-!
Pixelated sources (C65), time-varying pixelated sources (C66), tabulated deflections (C67), the sign
of the brightness of a non-negative image (C68), and which arrays the constructors accept (C69).
-/

namespace Caustics

variable {K : Type*} [Field K] [LinearOrder K] [FloorRing K] [IsStrictOrderedRing K]

/-! ### From positions to frame coordinates -/

omit [FloorRing K] in
/-- Pixel `j` of the grid of `meshgrid`, in frame coordinates. -/
theorem frame_centre {n j : ℕ} {ps : K} (hps : 0 < ps) (hj : j < n) :
    ((j : K) - ((n : K) - 1) / 2) * ps / (ps * (n : K)) * 2 = centre n j := by
  have hn : (0 : K) < n := by exact_mod_cast (by omega : 0 < n)
  unfold centre
  field_simp
  ring

omit [FloorRing K] in
theorem frame_le {n : ℕ} {ps d : K} (hps : 0 < ps) (hn : 1 ≤ n) :
    (1 < d / (ps * (n : K)) * 2 ↔ ps * n / 2 < d) ∧ (d / (ps * (n : K)) * 2 < -1 ↔ d < -(ps * n / 2)) := by
  have hn' : (0 : K) < n := by exact_mod_cast hn
  have hp : 0 < ps * (n : K) := mul_pos hps hn'
  constructor
  · rw [div_mul_eq_mul_div, lt_div_iff₀ hp]
    constructor <;> intro h <;> linarith
  · rw [div_mul_eq_mul_div, div_lt_iff₀ hp]
    constructor <;> intro h <;> linarith

omit [FloorRing K] in
theorem frame_pix {n : ℕ} {ps d : K} (hps : 0 < ps) (hn : 1 ≤ n) :
    pixCoord n (d / (ps * (n : K)) * 2) = d / ps + ((n : K) - 1) / 2 := by
  have hn' : (0 : K) < n := by exact_mod_cast hn
  unfold pixCoord
  field_simp
  ring

omit [LinearOrder K] [FloorRing K] [IsStrictOrderedRing K] in
/-- Linear interpolation along one axis is linear in the samples. -/
theorem lin_add [LinearOrder K] [FloorRing K] (n : ℕ) (p c : K) (f g : ℤ → K) :
    lin n p (fun i => f i + c * g i) = lin n p f + c * lin n p g := by
  unfold lin; ring

omit [LinearOrder K] [FloorRing K] [IsStrictOrderedRing K] in
theorem wrap_add {h w : ℕ} (f g : Fin h → Fin w → K) (c : K) (i j : ℤ) :
    wrap 0 (wrap (fun _ => 0) (fun a b => f a b + c * g a b) i) j
      = wrap 0 (wrap (fun _ => 0) f i) j + c * wrap 0 (wrap (fun _ => 0) g i) j := by
  unfold wrap
  cases hi : pyIdx h i <;> cases hj : pyIdx w j <;> simp

/-- `interp2d` is linear in the image. -/
theorem interp2d_add {h w : ℕ} (hh : 1 ≤ h) (hw : 1 ≤ w) (f g : Fin h → Fin w → K) (c x y : K)
    (padding : String) (hp : Pad2 padding) :
    ∃ a b, interp2d f x y "linear" padding = .ok a ∧ interp2d g x y "linear" padding = .ok b
      ∧ interp2d (fun i j => f i j + c * g i j) x y "linear" padding = .ok (a + c * b) := by
  refine ⟨_, _, interp2d_linear hh hw f x y padding hp, interp2d_linear hh hw g x y padding hp, ?_⟩
  rw [interp2d_linear hh hw _ x y padding hp]
  congr 1
  split_ifs
  · ring
  all_goals simp only [wrap_add, lin_add]

/-! ### C65: pixelated sources -/

/-- On the grid `meshgrid(pixelscale, nx, ny)` of its own shape, moved to its centre, a pixelated
source returns its image times its scale, for every padding mode. -/
theorem C65_meshgrid {h w : ℕ} (hh : 2 ≤ h) (hw : 2 ≤ w) (im : Fin h → Fin w → K)
    (x0 y0 ps scale : K) (hps : 0 < ps) (padding : String) (hp : Pad2 padding)
    (i : Fin h) (j : Fin w) :
    ∃ X Y, ((meshgrid ps w (some h)).1[(i : ℕ)]?.bind (·[(j : ℕ)]?)) = some X
      ∧ ((meshgrid ps w (some h)).2[(i : ℕ)]?.bind (·[(j : ℕ)]?)) = some Y
      ∧ pixelatedBrightness (.d2 im) x0 y0 ps scale (x0 + X) (y0 + Y) padding
        = .ok (im i j * scale) := by
  obtain ⟨_, _, _, _, hent⟩ := C06_entries ps w (some h)
  obtain ⟨hX, hY⟩ := hent i j i.isLt j.isLt
  refine ⟨_, _, hX, hY, ?_⟩
  simp only [pixelatedBrightness, add_sub_cancel_left, Option.getD_some]
  rw [frame_centre hps j.isLt, frame_centre hps i.isLt]
  exact C09_centre hh hw _ i j "linear" padding (Or.inr rfl) hp

/-- Outside the rectangle of `nx` by `ny` pixels around the centre the brightness is zero. -/
theorem C65_outside {h w : ℕ} (hh : 1 ≤ h) (hw : 1 ≤ w) (im : Fin h → Fin w → K)
    (x0 y0 ps scale x y : K) (hps : 0 < ps)
    (hout : ps * w / 2 < |x - x0| ∨ ps * h / 2 < |y - y0|) :
    pixelatedBrightness (.d2 im) x0 y0 ps scale x y = .ok 0 := by
  refine C09_zeros hh hw _ _ _ "linear" (Or.inr rfl) ?_
  rcases hout with h1 | h1 <;> rcases lt_abs.mp h1 with h2 | h2
  · exact Or.inr (Or.inl ((frame_le hps hw).1.mpr h2))
  · exact Or.inl ((frame_le hps hw).2.mpr (by linarith))
  · exact Or.inr (Or.inr (Or.inr ((frame_le hps hh).1.mpr h2)))
  · exact Or.inr (Or.inr (Or.inl ((frame_le hps hh).2.mpr (by linarith))))

/-- The brightness is linear in the image, with any padding mode. -/
theorem C65_linear {h w : ℕ} (hh : 1 ≤ h) (hw : 1 ≤ w) (f g : Fin h → Fin w → K)
    (x0 y0 ps scale x y c : K) (padding : String) (hp : Pad2 padding) :
    ∃ a b, pixelatedBrightness (.d2 f) x0 y0 ps scale x y padding = .ok a
      ∧ pixelatedBrightness (.d2 g) x0 y0 ps scale x y padding = .ok b
      ∧ pixelatedBrightness (.d2 fun i j => f i j + c * g i j) x0 y0 ps scale x y padding
        = .ok (a + c * b) := by
  obtain ⟨a, b, ha, hb, hab⟩ := interp2d_add hh hw (fun i j => f i j * scale)
    (fun i j => g i j * scale) c ((x - x0) / (ps * (w : K)) * 2) ((y - y0) / (ps * (h : K)) * 2)
    padding hp
  refine ⟨a, b, ha, hb, ?_⟩
  rw [← hab]
  simp only [pixelatedBrightness]
  congr 1
  funext i j
  ring

/-- Multiplying `scale` multiplies the brightness. -/
theorem C65_scale {h w : ℕ} (hh : 1 ≤ h) (hw : 1 ≤ w) (f : Fin h → Fin w → K)
    (x0 y0 ps scale x y c : K) (padding : String) (hp : Pad2 padding) :
    ∃ a, pixelatedBrightness (.d2 f) x0 y0 ps scale x y padding = .ok a
      ∧ pixelatedBrightness (.d2 f) x0 y0 ps (c * scale) x y padding = .ok (c * a) := by
  obtain ⟨a, b, ha, hb, hab⟩ := interp2d_add hh hw (fun i j => f i j * scale)
    (fun i j => f i j * scale) (c - 1) ((x - x0) / (ps * (w : K)) * 2)
    ((y - y0) / (ps * (h : K)) * 2) padding hp
  have : a = b := by rw [ha] at hb; exact Except.ok.inj hb
  subst this
  refine ⟨a, ha, ?_⟩
  rw [show c * a = a + (c - 1) * a by ring, ← hab]
  simp only [pixelatedBrightness]
  congr 1
  funext i j
  ring

omit [IsStrictOrderedRing K] in
/-- Moving the source and the query together changes nothing, whatever the image. -/
theorem C65_translate (image : NDArr K) (x0 y0 ps scale x y dx dy : K) (padding : String) :
    pixelatedBrightness image (x0 + dx) (y0 + dy) ps scale (x + dx) (y + dy) padding
      = pixelatedBrightness image x0 y0 ps scale x y padding := by
  unfold pixelatedBrightness
  rw [show x + dx - (x0 + dx) = x - x0 by ring, show y + dy - (y0 + dy) = y - y0 by ring]

omit [IsStrictOrderedRing K] in
/-- Magnifying the pixels magnifies the picture: only the offset in pixels matters. -/
theorem C65_magnify (image : NDArr K) (x0 y0 ps scale u v m : K) (hm : m ≠ 0) (padding : String) :
    pixelatedBrightness image x0 y0 (m * ps) scale (x0 + m * u) (y0 + m * v) padding
      = pixelatedBrightness image x0 y0 ps scale (x0 + u) (y0 + v) padding := by
  have h : ∀ z n : K, m * z / (m * ps * n) * 2 = z / (ps * n) * 2 := by
    intro z n; rw [mul_assoc, mul_div_mul_left _ _ hm]
  unfold pixelatedBrightness
  simp only [add_sub_cancel_left, h]

/-- A brightness that is affine on the plane is reproduced everywhere in the rectangle from its
samples at the pixel centres. -/
theorem C65_affine {h w : ℕ} (hh : 2 ≤ h) (hw : 2 ≤ w) (a b c x0 y0 ps x y : K) (hps : 0 < ps)
    (hx : |x - x0| ≤ ps * w / 2) (hy : |y - y0| ≤ ps * h / 2) :
    pixelatedBrightness (.d2 fun (i : Fin h) (j : Fin w) =>
        a + b * (x0 + (((j : ℕ) : K) - ((w : K) - 1) / 2) * ps)
          + c * (y0 + (((i : ℕ) : K) - ((h : K) - 1) / 2) * ps)) x0 y0 ps 1 x y
      = .ok (a + b * x + c * y) := by
  have hw1 : 1 ≤ w := by omega
  have hh1 : 1 ≤ h := by omega
  have fr : ∀ (n : ℕ) (d : K), 1 ≤ n → |d| ≤ ps * n / 2 →
      -1 ≤ d / (ps * (n : K)) * 2 ∧ d / (ps * (n : K)) * 2 ≤ 1 := by
    intro n d hn hd
    obtain ⟨h1, h2⟩ := abs_le.mp hd
    exact ⟨not_lt.mp fun h => absurd ((frame_le hps hn).2.mp h) (not_lt.mpr h1),
      not_lt.mp fun h => absurd ((frame_le hps hn).1.mp h) (not_lt.mpr h2)⟩
  have key := C09_affine hh hw (a + b * (x0 - ((w : K) - 1) / 2 * ps) + c * (y0 - ((h : K) - 1) / 2 * ps))
    (b * ps) (c * ps) ((x - x0) / (ps * (w : K)) * 2) ((y - y0) / (ps * (h : K)) * 2) "zeros"
    (Or.inr (Or.inr rfl)) fun _ => ⟨fr w _ hw1 hx, fr h _ hh1 hy⟩
  rw [frame_pix hps hw1, frame_pix hps hh1] at key
  simp only [pixelatedBrightness]
  have him : (fun (i : Fin h) (j : Fin w) =>
      (a + b * (x0 + (((j : ℕ) : K) - ((w : K) - 1) / 2) * ps)
          + c * (y0 + (((i : ℕ) : K) - ((h : K) - 1) / 2) * ps)) * 1)
      = fun (i : Fin h) (j : Fin w) =>
        (a + b * (x0 - ((w : K) - 1) / 2 * ps) + c * (y0 - ((h : K) - 1) / 2 * ps))
          + b * ps * ((j : ℕ) : K) + c * ps * ((i : ℕ) : K) := by
    funext i j; ring
  rw [him, key]
  congr 1
  field_simp
  ring

/-- Between the outermost pixel centres the brightness stays within the range of the image. -/
theorem C65_bounded {h w : ℕ} (hh : 2 ≤ h) (hw : 2 ≤ w) (im : Fin h → Fin w → K)
    (x0 y0 ps scale x y lo hi : K) (hps : 0 < ps) (hs : 0 ≤ scale)
    (hx : |x - x0| ≤ ps * (w - 1) / 2) (hy : |y - y0| ≤ ps * (h - 1) / 2)
    (hb : ∀ i j, lo ≤ im i j ∧ im i j ≤ hi) :
    ∃ r, pixelatedBrightness (.d2 im) x0 y0 ps scale x y = .ok r ∧ lo * scale ≤ r ∧ r ≤ hi * scale := by
  have fr : ∀ (n : ℕ) (d : K), 1 ≤ n → |d| ≤ ps * ((n : K) - 1) / 2 →
      0 ≤ pixCoord n (d / (ps * (n : K)) * 2) ∧ pixCoord n (d / (ps * (n : K)) * 2) ≤ (n : K) - 1 := by
    intro n d hn hd
    obtain ⟨h1, h2⟩ := abs_le.mp hd
    rw [frame_pix hps hn]
    have e1 : -(((n : K) - 1) / 2) ≤ d / ps := by rw [le_div_iff₀ hps]; linarith
    have e2 : d / ps ≤ ((n : K) - 1) / 2 := by rw [div_le_iff₀ hps]; linarith
    constructor <;> linarith
  obtain ⟨a1, a2⟩ := fr w _ (by omega) hx
  obtain ⟨b1, b2⟩ := fr h _ (by omega) hy
  exact C09_bounded hh hw _ _ _ (lo * scale) (hi * scale) "zeros" (Or.inr (Or.inr rfl)) a1 a2 b1 b2
    fun i j => ⟨mul_le_mul_of_nonneg_right (hb i j).1 hs, mul_le_mul_of_nonneg_right (hb i j).2 hs⟩

/-- A 2×3 image with pixel scale 2 centred on (5, 1). -/
example : let im : NDArr ℚ := .d2 fun (i : Fin 2) (j : Fin 3) => 10 * ((i : ℕ) : ℚ) + ((j : ℕ) : ℚ)
    pixelatedBrightness im 5 1 2 3 7 2 = .ok 36 ∧ pixelatedBrightness im 5 1 2 3 3 0 = .ok 0 ∧
    pixelatedBrightness im 5 1 2 3 6 1 = .ok (39 / 2) ∧ pixelatedBrightness im 5 1 2 3 9 1 = .ok 0 ∧
    pixelatedBrightness im 5 1 2 3 9 1 "border" = .error .valueError := by
  decide +kernel

/-! ### C66: time-varying pixelated sources -/

/-- Frame `k` of `n` is shown at the middle of the `k`-th of `n` equal parts of `[0, t_end]`: there,
at the pixel centres, the source returns its cube times its scale. -/
theorem C66_meshgrid {d h w : ℕ} (hd : 2 ≤ d) (hh : 2 ≤ h) (hw : 2 ≤ w)
    (cu : Fin d → Fin h → Fin w → K) (x0 y0 ps tEnd scale : K) (hps : 0 < ps) (ht : 0 < tEnd)
    (k : Fin d) (i : Fin h) (j : Fin w) :
    ∃ X Y, ((meshgrid ps w (some h)).1[(i : ℕ)]?.bind (·[(j : ℕ)]?)) = some X
      ∧ ((meshgrid ps w (some h)).2[(i : ℕ)]?.bind (·[(j : ℕ)]?)) = some Y
      ∧ pixelatedTimeBrightness (.d3 cu) x0 y0 ps tEnd scale (x0 + X) (y0 + Y)
          ((((k : ℕ) : K) + 1 / 2) * tEnd / d) = .ok (cu k i j * scale) := by
  obtain ⟨_, _, _, _, hent⟩ := C06_entries ps w (some h)
  obtain ⟨hX, hY⟩ := hent i j i.isLt j.isLt
  refine ⟨_, _, hX, hY, ?_⟩
  have hd' : (0 : K) < d := by exact_mod_cast (by omega : 0 < d)
  have ht' : ((((k : ℕ) : K) + 1 / 2) * tEnd / d - tEnd / 2) / tEnd * 2 = centre d k := by
    unfold centre; field_simp
  simp only [pixelatedTimeBrightness, add_sub_cancel_left, Option.getD_some]
  rw [frame_centre hps j.isLt, frame_centre hps i.isLt, ht']
  exact C10_centre hd hh hw _ k i j "linear" "zeros" (Or.inr rfl) (Or.inr rfl)

/-- Outside the rectangle, before time 0 and after `t_end` the brightness is zero. -/
theorem C66_outside {d h w : ℕ} (hd : 1 ≤ d) (hh : 1 ≤ h) (hw : 1 ≤ w)
    (cu : Fin d → Fin h → Fin w → K) (x0 y0 ps tEnd scale x y t : K) (hps : 0 < ps) (ht : 0 < tEnd)
    (hout : ps * w / 2 < |x - x0| ∨ ps * h / 2 < |y - y0| ∨ t < 0 ∨ tEnd < t) :
    pixelatedTimeBrightness (.d3 cu) x0 y0 ps tEnd scale x y t = .ok 0 := by
  refine C10_zeros hd hh hw _ _ _ _ "linear" (Or.inr rfl) ?_
  have t1 : t < 0 → (t - tEnd / 2) / tEnd * 2 < -1 := by
    intro h; rw [div_mul_eq_mul_div, div_lt_iff₀ ht]; linarith
  have t2 : tEnd < t → 1 < (t - tEnd / 2) / tEnd * 2 := by
    intro h; rw [div_mul_eq_mul_div, lt_div_iff₀ ht]; linarith
  rcases hout with h1 | h1 | h1 | h1
  · rcases lt_abs.mp h1 with h2 | h2
    · exact Or.inr (Or.inl ((frame_le hps hw).1.mpr h2))
    · exact Or.inl ((frame_le hps hw).2.mpr (by linarith))
  · rcases lt_abs.mp h1 with h2 | h2
    · exact Or.inr (Or.inr (Or.inr (Or.inl ((frame_le hps hh).1.mpr h2))))
    · exact Or.inr (Or.inr (Or.inl ((frame_le hps hh).2.mpr (by linarith))))
  · exact Or.inr (Or.inr (Or.inr (Or.inr (Or.inl (t1 h1)))))
  · exact Or.inr (Or.inr (Or.inr (Or.inr (Or.inr (t2 h1)))))

/-- A cube that does not change shows its one picture at every time of `[0, t_end]`: the
time-varying source then equals the static one with the same parameters. -/
theorem C66_static {d h w : ℕ} (hd : 2 ≤ d) (hh : 1 ≤ h) (hw : 1 ≤ w) (im : Fin h → Fin w → K)
    (x0 y0 ps tEnd scale x y t : K) (ht : 0 < tEnd) (h0 : 0 ≤ t) (h1 : t ≤ tEnd) :
    pixelatedTimeBrightness (.d3 fun (_ : Fin d) => im) x0 y0 ps tEnd scale x y t
      = pixelatedBrightness (.d2 im) x0 y0 ps scale x y := by
  have f1 : -1 ≤ (t - tEnd / 2) / tEnd * 2 := by
    rw [div_mul_eq_mul_div, le_div_iff₀ ht]; linarith
  have f2 : (t - tEnd / 2) / tEnd * 2 ≤ 1 := by
    rw [div_mul_eq_mul_div, div_le_iff₀ ht]; linarith
  simp only [pixelatedTimeBrightness, pixelatedBrightness]
  rw [interp3d_linear (by omega) hh hw _ _ _ _ "zeros" (Or.inr rfl),
    interp2d_linear hh hw _ _ _ "zeros" (Or.inr (Or.inr rfl)), onFrame f1 f2]
  simp only [Bool.or_false, show ¬("zeros" = "clamp") by decide, if_false]
  congr 1
  split_ifs
  · rfl
  · generalize (t - tEnd / 2) / tEnd * 2 = s
    obtain ⟨c0, c1⟩ := cell_bounds2 hd (toPix s d)
    set A := lin h (toPix ((y - y0) / (ps * (h : K)) * 2) h) fun i =>
      lin w (toPix ((x - x0) / (ps * (w : K)) * 2) w) fun j =>
        wrap 0 (wrap (fun _ => 0) (fun i j => im i j * scale) i) j with hA
    have := lin_affine d (toPix s d) A 0 (fun k => lin h (toPix ((y - y0) / (ps * (h : K)) * 2) h)
      fun i => lin w (toPix ((x - x0) / (ps * (w : K)) * 2) w) fun j =>
        wrap 0 (wrap (fun _ => 0) (wrap (fun _ _ => 0) (fun (_ : Fin d) i j => im i j * scale) k) i) j)
    rw [this]
    · ring
    · simp only [wrap_nonneg _ _ c0 (by omega : cell d (toPix s d) < (d : ℤ))]
      rw [hA]; ring
    · simp only [wrap_nonneg _ _ (by omega : 0 ≤ cell d (toPix s d) + 1) c1]
      rw [hA]; ring

/-- Two frames of a 2×2 picture over `[0, 8]`: halfway between the frame times, and too late. -/
example : let cu : NDArr ℚ := .d3 fun (k : Fin 2) (i : Fin 2) (j : Fin 2) =>
      100 * ((k : ℕ) : ℚ) + 10 * ((i : ℕ) : ℚ) + ((j : ℕ) : ℚ)
    pixelatedTimeBrightness cu 0 0 2 8 1 1 (-1) 2 = .ok 1 ∧
    pixelatedTimeBrightness cu 0 0 2 8 1 1 (-1) 6 = .ok 101 ∧
    pixelatedTimeBrightness cu 0 0 2 8 1 1 (-1) 4 = .ok 51 ∧
    pixelatedTimeBrightness cu 0 0 2 8 1 1 (-1) 9 = .ok 0 := by
  decide +kernel

/-! ### C67: tabulated deflections -/

/-- On the grid of its own shape a tabulated lens deflects by the tabulated angles, first the `x`
then the `y` map, and `raytrace` moves the grid position by them. -/
theorem C67_meshgrid {h w : ℕ} (hh : 2 ≤ h) (hw : 2 ≤ w) (m : Fin 2 → Fin h → Fin w → K)
    (x0 y0 ps : K) (hps : 0 < ps) (i : Fin h) (j : Fin w) :
    ∃ X Y, ((meshgrid ps w (some h)).1[(i : ℕ)]?.bind (·[(j : ℕ)]?)) = some X
      ∧ ((meshgrid ps w (some h)).2[(i : ℕ)]?.bind (·[(j : ℕ)]?)) = some Y
      ∧ pixelatedDeflection (.d3 m) x0 y0 ps (x0 + X) (y0 + Y) = .ok (m 0 i j, m 1 i j)
      ∧ pixelatedDeflectionRaytrace (.d3 m) x0 y0 ps (x0 + X) (y0 + Y)
        = .ok (x0 + X - m 0 i j, y0 + Y - m 1 i j) := by
  obtain ⟨_, _, _, _, hent⟩ := C06_entries ps w (some h)
  obtain ⟨hX, hY⟩ := hent i j i.isLt j.isLt
  refine ⟨_, _, hX, hY, ?_⟩
  have key : pixelatedDeflection (.d3 m) x0 y0 ps
      (x0 + (((j : ℕ) : K) - ((w : K) - 1) / 2) * ps)
      (y0 + (((i : ℕ) : K) - ((h : K) - 1) / 2) * ps) = .ok (m 0 i j, m 1 i j) := by
    simp only [pixelatedDeflection, add_sub_cancel_left, dif_pos (le_refl 2), mul_comm (w : K) ps,
      mul_comm (h : K) ps]
    rw [frame_centre hps j.isLt, frame_centre hps i.isLt,
      C09_centre hh hw _ i j "linear" "zeros" (Or.inr rfl) (Or.inr (Or.inr rfl)),
      C09_centre hh hw _ i j "linear" "zeros" (Or.inr rfl) (Or.inr (Or.inr rfl))]
    rfl
  simp only [Option.getD_some]
  refine ⟨key, ?_⟩
  rw [pixelatedDeflectionRaytrace, key]
  rfl

/-- Off the table there is no deflection, so `raytrace` is the identity there. -/
theorem C67_outside {h w : ℕ} (hh : 1 ≤ h) (hw : 1 ≤ w) (m : Fin 2 → Fin h → Fin w → K)
    (x0 y0 ps x y : K) (hps : 0 < ps)
    (hout : ps * w / 2 < |x - x0| ∨ ps * h / 2 < |y - y0|) :
    pixelatedDeflection (.d3 m) x0 y0 ps x y = .ok (0, 0)
      ∧ pixelatedDeflectionRaytrace (.d3 m) x0 y0 ps x y = .ok (x, y) := by
  have hz : ∀ k : Fin 2, interp2d (m k) ((x - x0) / (ps * (w : K)) * 2)
      ((y - y0) / (ps * (h : K)) * 2) "linear" "zeros" = .ok 0 := by
    intro k
    refine C09_zeros hh hw _ _ _ "linear" (Or.inr rfl) ?_
    rcases hout with h1 | h1 <;> rcases lt_abs.mp h1 with h2 | h2
    · exact Or.inr (Or.inl ((frame_le hps hw).1.mpr h2))
    · exact Or.inl ((frame_le hps hw).2.mpr (by linarith))
    · exact Or.inr (Or.inr (Or.inr ((frame_le hps hh).1.mpr h2)))
    · exact Or.inr (Or.inr (Or.inl ((frame_le hps hh).2.mpr (by linarith))))
  have key : pixelatedDeflection (.d3 m) x0 y0 ps x y = .ok (0, 0) := by
    simp only [pixelatedDeflection, dif_pos (le_refl 2), mul_comm (w : K) ps, mul_comm (h : K) ps]
    rw [hz, hz]
    rfl
  refine ⟨key, ?_⟩
  rw [pixelatedDeflectionRaytrace, key]
  simp only [bind, Except.bind, pure, Except.pure, sub_zero]

omit [LinearOrder K] [FloorRing K] [IsStrictOrderedRing K] in
theorem planeLoop_ok (l : List K) (post : List (Except PyErr K)) (a : K) :
    (l.map Except.ok ++ post).foldlM (fun (acc : K) (r : Except PyErr K) => r.map (acc + ·)) a =
      post.foldlM (fun (acc : K) (r : Except PyErr K) => r.map (acc + ·)) (a + l.sum) := by
  induction l generalizing a with
  | nil => simp
  | cons v l ih =>
    rw [List.map_cons, List.cons_append, List.foldlM_cons, List.sum_cons, ← add_assoc]
    exact ih (a + v)

/-- A `SinglePlane` with a `PixelatedDeflection` among its members deflects by the sum of its members, but has neither a
convergence nor a potential, and so no time delay: both raise `NotImplementedError`, whatever the others are. -/
theorem C67_in_plane {h w : ℕ} (hh : 1 ≤ h) (hw : 1 ≤ w) (m : Fin 2 → Fin h → Fin w → K) (x0 y0 ps x y : K)
    (pre post : List K) (tail : List (Except PyErr K)) :
    planeLoop (pre.map .ok ++ pixelatedDeflectionPotential (.d3 m) x y :: tail) = .error .notImplemented ∧
    ∃ a, pixelatedDeflection (.d3 m) x0 y0 ps x y = .ok a ∧
      planeLoop (pre.map .ok ++ ((pixelatedDeflection (.d3 m) x0 y0 ps x y).map Prod.fst :: post.map .ok)) =
        .ok (pre.sum + a.1 + post.sum) ∧
      planeLoop (pre.map .ok ++ ((pixelatedDeflection (.d3 m) x0 y0 ps x y).map Prod.snd :: post.map .ok)) =
        .ok (pre.sum + a.2 + post.sum) := by
  have key : ∀ v : K, planeLoop (pre.map .ok ++ ((.ok v : Except PyErr K) :: post.map .ok)) = .ok (pre.sum + v + post.sum) := by
    intro v
    have e := planeLoop_ok post [] (pre.sum + v)
    rw [List.append_nil] at e
    unfold planeLoop
    rw [planeLoop_ok, List.foldlM_cons, zero_add]
    exact e
  constructor
  · unfold planeLoop
    rw [planeLoop_ok]
    rfl
  · obtain ⟨a, ha⟩ : ∃ a, pixelatedDeflection (.d3 m) x0 y0 ps x y = .ok a := by
      obtain ⟨r0, h0⟩ := C09_total hh hw (m 0) ((x - x0) / ((w : K) * ps) * 2)
        ((y - y0) / ((h : K) * ps) * 2) "linear" "zeros" (Or.inr rfl) (Or.inr (Or.inr rfl))
      obtain ⟨r1, h1⟩ := C09_total hh hw (m 1) ((x - x0) / ((w : K) * ps) * 2)
        ((y - y0) / ((h : K) * ps) * 2) "linear" "zeros" (Or.inr rfl) (Or.inr (Or.inr rfl))
      exact ⟨(r0, r1), by
        show (do
          let ax ← interp2d (m 0) ((x - x0) / ((w : K) * ps) * 2) ((y - y0) / ((h : K) * ps) * 2) "linear" "zeros"
          let ay ← interp2d (m 1) ((x - x0) / ((w : K) * ps) * 2) ((y - y0) / ((h : K) * ps) * 2) "linear" "zeros"
          pure (ax, ay)) = _
        rw [h0, h1]
        rfl⟩
    refine ⟨a, ha, ?_, ?_⟩ <;> rw [ha] <;> exact key _

/-- A table of two by two between a lens deflecting by 3 and one by 4. -/
example : planeLoop [.ok 3, (pixelatedDeflection (.d3 fun (_ : Fin 2) (_ _ : Fin 2) => (5 : ℚ)) 0 0 1 0 0).map Prod.fst, .ok 4] =
      .ok 12 ∧
    planeLoop [.ok 3, pixelatedDeflectionPotential (.d3 fun (_ : Fin 2) (_ _ : Fin 2) => (5 : ℚ)) 0 0, .ok 4] =
      .error .notImplemented := by
  decide +kernel

/-- A table of the deflections of a mass sheet with shear, `α = A·(x, y)`, deflects exactly so
everywhere on the table. -/
theorem C67_linear_lens {h w : ℕ} (hh : 2 ≤ h) (hw : 2 ≤ w) (a b c d x0 y0 ps x y : K) (hps : 0 < ps)
    (hx : |x - x0| ≤ ps * w / 2) (hy : |y - y0| ≤ ps * h / 2) :
    pixelatedDeflection (.d3 fun (k : Fin 2) (i : Fin h) (j : Fin w) =>
        if k = 0 then 0 + a * (x0 + (((j : ℕ) : K) - ((w : K) - 1) / 2) * ps)
            + b * (y0 + (((i : ℕ) : K) - ((h : K) - 1) / 2) * ps)
        else 0 + c * (x0 + (((j : ℕ) : K) - ((w : K) - 1) / 2) * ps)
            + d * (y0 + (((i : ℕ) : K) - ((h : K) - 1) / 2) * ps)) x0 y0 ps x y
      = .ok (a * x + b * y, c * x + d * y) := by
  have k1 := C65_affine hh hw 0 a b x0 y0 ps x y hps hx hy
  have k2 := C65_affine hh hw 0 c d x0 y0 ps x y hps hx hy
  simp only [pixelatedBrightness, mul_one] at k1 k2
  have e0 : (⟨0, by omega⟩ : Fin 2) = 0 := rfl
  have e1 : ¬ ((⟨1, by omega⟩ : Fin 2) = 0) := fun h => absurd (congrArg Fin.val h) (by simp)
  simp only [pixelatedDeflection, dif_pos (le_refl 2), mul_comm (w : K) ps, mul_comm (h : K) ps,
    e0, if_true, if_neg e1]
  rw [k1, k2]
  simp only [bind, Except.bind, pure, Except.pure, zero_add]

/-- A 2×2 table sampled at a corner pixel, in the middle, and outside. -/
example : let m : NDArr ℚ := .d3 fun (k : Fin 2) (i : Fin 2) (j : Fin 2) =>
      if k = 0 then ((j : ℕ) : ℚ) else 3 * ((i : ℕ) : ℚ)
    pixelatedDeflection m 0 0 2 1 (-1) = .ok (1, 0) ∧
    pixelatedDeflection m 0 0 2 0 0 = .ok (1 / 2, 3 / 2) ∧
    pixelatedDeflectionRaytrace m 0 0 2 5 7 = .ok (5, 7) := by
  decide +kernel

/-! ### C68: a non-negative image has a non-negative brightness -/

/-- The claim: wherever a source with a non-negative image and scale is evaluated, its brightness is
not negative. -/
def C68_statement : Prop :=
  ∀ (h w : ℕ) (im : Fin h → Fin w → ℚ) (x0 y0 ps scale x y : ℚ), 1 ≤ h → 1 ≤ w → 0 < ps → 0 ≤ scale →
    (∀ i j, 0 ≤ im i j) →
    ∃ r, pixelatedBrightness (.d2 im) x0 y0 ps scale x y = .ok r ∧ 0 ≤ r

/-- It fails: in the half pixel between the outermost pixel centres and the edge of the image the
interpolation extrapolates, here to minus a quarter of the pixel next to the edge. -/
theorem C68_fails : ¬ C68_statement := by
  intro hall
  obtain ⟨r, hr, h0⟩ := hall 2 2 (fun _ j => if j = 0 then 0 else 1) 0 0 1 1 (-(3 / 4)) 0
    (by norm_num) (by norm_num) (by norm_num) (by norm_num) (by intro i j; split_ifs <;> norm_num)
  have hv : pixelatedBrightness (.d2 fun (_ : Fin 2) (j : Fin 2) => if j = 0 then (0 : ℚ) else 1)
      0 0 1 1 (-(3 / 4)) 0 = .ok (-(1 / 4)) := by decide +kernel
  rw [hv] at hr
  have := Except.ok.inj hr
  linarith

/-- It holds between the outermost pixel centres and outside the image. -/
theorem C68_interior_partial {h w : ℕ} (hh : 2 ≤ h) (hw : 2 ≤ w) (im : Fin h → Fin w → K)
    (x0 y0 ps scale x y : K) (hps : 0 < ps) (hs : 0 ≤ scale) (hpos : ∀ i j, 0 ≤ im i j)
    (hin : (|x - x0| ≤ ps * (w - 1) / 2 ∧ |y - y0| ≤ ps * (h - 1) / 2)
      ∨ ps * w / 2 < |x - x0| ∨ ps * h / 2 < |y - y0|) :
    ∃ r, pixelatedBrightness (.d2 im) x0 y0 ps scale x y = .ok r ∧ 0 ≤ r := by
  rcases hin with ⟨hx, hy⟩ | hout
  · obtain ⟨i0⟩ : Nonempty (Fin h) := ⟨⟨0, by omega⟩⟩
    let hi : K := ∑ i, ∑ j, im i j
    have hle : ∀ i j, im i j ≤ hi := by
      intro i j
      exact (Finset.single_le_sum (f := fun j => im i j) (fun j _ => hpos i j) (Finset.mem_univ j)).trans
        (Finset.single_le_sum (f := fun i => ∑ j, im i j)
          (fun i _ => Finset.sum_nonneg fun j _ => hpos i j) (Finset.mem_univ i))
    obtain ⟨r, hr, h0, _⟩ := C65_bounded hh hw im x0 y0 ps scale x y 0 hi hps hs hx hy
      fun i j => ⟨hpos i j, hle i j⟩
    exact ⟨r, hr, by simpa using h0⟩
  · exact ⟨0, C65_outside (by omega) (by omega) im x0 y0 ps scale x y hps hout, le_rfl⟩

/-! ### C69: arrays the constructors accept -/

/-- The claim: an array with positive dimensions that a constructor accepts can be evaluated. -/
def C69_statement : Prop :=
  (∀ (a : NDArr ℚ) (shapeLen : Option ℕ), pixelatedInit (some a) shapeLen = .ok () →
    ∃ r, pixelatedBrightness a 0 0 1 1 0 0 = .ok r)
  ∧ ∀ (a : NDArr ℚ) (shapeLen : Option ℕ), pixelatedTimeInit (some a) shapeLen = .ok () →
    ∃ r, pixelatedTimeBrightness a 0 0 1 1 1 0 0 0 = .ok r

omit [IsStrictOrderedRing K] in
/-- Every image with a channel axis is accepted by the constructor and rejected by `brightness`, at
every position and with every parameter; the same for cubes with a channel axis. -/
theorem C69_channels {c d h w : ℕ} (a3 : Fin d → Fin h → Fin w → K)
    (a4 : Fin c → Fin d → Fin h → Fin w → K) (x0 y0 ps tEnd scale x y t : K) (padding : String) :
    pixelatedInit (some (.d3 a3)) (some 3) = .ok ()
      ∧ pixelatedBrightness (.d3 a3) x0 y0 ps scale x y padding = .error .valueError
      ∧ pixelatedTimeInit (some (.d4 a4)) (some 4) = .ok ()
      ∧ pixelatedTimeBrightness (.d4 a4) x0 y0 ps tEnd scale x y t = .error .valueError :=
  ⟨rfl, rfl, rfl, rfl⟩

theorem C69_fails : ¬ C69_statement := by
  intro h
  obtain ⟨r, hr⟩ := h.1 (.d3 fun (_ : Fin 1) (_ : Fin 2) (_ : Fin 2) => 1) none rfl
  exact absurd hr (by simp [pixelatedBrightness])

/-- Without a channel axis every accepted array is evaluated everywhere: images by `Pixelated`, cubes
by `PixelatedTime`, and maps with two components by `PixelatedDeflection`. -/
theorem C69_plain_partial {d h w : ℕ} (hd : 1 ≤ d) (hh : 1 ≤ h) (hw : 1 ≤ w)
    (im : Fin h → Fin w → K) (cu : Fin d → Fin h → Fin w → K) (m : Fin 2 → Fin h → Fin w → K)
    (x0 y0 ps tEnd scale x y t : K) (padding : String) (hp : Pad2 padding) :
    (∃ r, pixelatedBrightness (.d2 im) x0 y0 ps scale x y padding = .ok r)
      ∧ (∃ r, pixelatedTimeBrightness (.d3 cu) x0 y0 ps tEnd scale x y t = .ok r)
      ∧ ∃ r, pixelatedDeflection (.d3 m) x0 y0 ps x y = .ok r := by
  refine ⟨C09_total hh hw _ _ _ "linear" padding (Or.inr rfl) hp,
    C10_total hd hh hw _ _ _ _ "linear" "zeros" (Or.inr rfl) (Or.inr rfl), ?_⟩
  simp only [pixelatedDeflection, dif_pos (le_refl 2)]
  obtain ⟨r0, h0⟩ := C09_total hh hw (m 0) ((x - x0) / ((w : K) * ps) * 2)
    ((y - y0) / ((h : K) * ps) * 2) "linear" "zeros" (Or.inr rfl) (Or.inr (Or.inr rfl))
  obtain ⟨r1, h1⟩ := C09_total hh hw (m 1) ((x - x0) / ((w : K) * ps) * 2)
    ((y - y0) / ((h : K) * ps) * 2) "linear" "zeros" (Or.inr rfl) (Or.inr (Or.inr rfl))
  refine ⟨(r0, r1), ?_⟩
  change (do
    let ax ← interp2d (m 0) _ _ "linear" "zeros"
    let ay ← interp2d (m 1) _ _ "linear" "zeros"
    pure (ax, ay)) = _
  rw [h0, h1]
  rfl

omit [Field K] [LinearOrder K] [FloorRing K] [IsStrictOrderedRing K] in
/-- The constructors reject every other number of dimensions, and any `shape` of another length. -/
theorem C69_rejects (a : NDArr K) (l : Option ℕ) :
    (a.ndim ≠ 2 → a.ndim ≠ 3 → pixelatedInit (some a) l = .error .valueError)
      ∧ (a.ndim ≠ 3 → a.ndim ≠ 4 → pixelatedTimeInit (some a) l = .error .valueError)
      ∧ (a.ndim ≠ 3 → pixelatedDeflectionInit (some a) l = .error .valueError)
      ∧ (∀ n, n ≠ 2 → n ≠ 3 → pixelatedInit (K := K) none (some n) = .error .valueError)
      ∧ (∀ n, n ≠ 3 → n ≠ 4 → pixelatedTimeInit (K := K) none (some n) = .error .valueError)
      ∧ ∀ n, n ≠ 3 → pixelatedDeflectionInit (K := K) none (some n) = .error .valueError := by
  refine ⟨?_, ?_, ?_, ?_, ?_, ?_⟩ <;> intros <;>
    simp_all [pixelatedInit, pixelatedTimeInit, pixelatedDeflectionInit]

omit [Field K] [LinearOrder K] [FloorRing K] [IsStrictOrderedRing K] in
/-- Which numbers of dimensions are accepted. -/
theorem C69_dimensions {c d h w : ℕ} (a2 : Fin h → Fin w → K) (a3 : Fin d → Fin h → Fin w → K)
    (a4 : Fin c → Fin d → Fin h → Fin w → K) :
    pixelatedInit (some (.d2 a2)) none = .ok () ∧ pixelatedInit (some (.d3 a3)) none = .ok () ∧
    pixelatedInit (some (.d4 a4)) none = .error .valueError ∧
    pixelatedTimeInit (some (.d2 a2)) none = .error .valueError ∧ pixelatedTimeInit (some (.d3 a3)) none = .ok () ∧
    pixelatedTimeInit (some (.d4 a4)) none = .ok () ∧
    pixelatedDeflectionInit (some (.d2 a2)) none = .error .valueError ∧
    pixelatedDeflectionInit (some (.d3 a3)) none = .ok () ∧
    pixelatedDeflectionInit (some (.d4 a4)) none = .error .valueError :=
  ⟨rfl, rfl, rfl, rfl, rfl, rfl, rfl, rfl, rfl⟩

example : pixelatedInit (K := ℚ) (some (.other 4)) none = .error .valueError ∧
    pixelatedInit (some (.d2 fun (_ : Fin 1) (_ : Fin 1) => (0 : ℚ))) (some 2) = .ok () :=
  ⟨rfl, rfl⟩

end Caustics

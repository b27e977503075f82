import Verif.Lemmas.LensSource
import Verif.Props.Grid

/-! C39 (settings and grid), C40 (FFT and direct convolution), C41 (output shape), C42 (uniform
brightness, linearity) of the image simulator. -/

namespace Caustics

variable {lib : SimLib}

/-! ### C39 -/

/-- The state after a sequence of assignments by a user who carries on after exceptions. -/
noncomputable def Sim.run (lib : SimLib) (x : Sim) (ops : List SimOp) : Sim :=
  ops.foldl (fun x op => (x.assign lib op).1) x

/-- The claim: whatever was assigned, the object is the one a fresh construction would give. -/
def C39_statement : Prop :=
  ∀ (lib : SimLib) (cfg : SimCfg) (x : Sim), Sim.new lib cfg = .ok x → ∀ ops : List SimOp,
    Sim.new lib (x.run lib ops).cfg = .ok (x.run lib ops)

/-- An assignment that raises nothing leaves the object exactly as freshly constructed from its
settings, whatever state it was in before. -/
theorem C39_accepted {x y : Sim} {op : SimOp} (h : x.assign lib op = (y, none)) :
    Sim.new lib y.cfg = .ok y := by
  unfold Sim.assign at h
  split at h
  all_goals first
    | exact build_fresh h
    | (split at h
       · exact build_fresh h
       · simp at h)

/-- A value refused by an assertion changes nothing. -/
theorem C39_rejected {x y : Sim} {op : SimOp} (h : x.assign lib op = (y, some .assertionError)) : y = x := by
  have hb : ∀ z : Sim, Sim.build lib z ≠ (y, some .assertionError) := by
    intro z hz
    unfold Sim.build at hz
    split at hz
    · split at hz <;> simp at hz
    · simp at hz
  unfold Sim.assign at h
  split at h
  all_goals first
    | exact absurd h (hb _)
    | (split at h
       · exact absurd h (hb _)
       · simp only [Prod.mk.injEq, and_true] at h; exact h.symm)

/-- An assignment that is not refused changes the setting it names and no other. -/
theorem C39_setting {x y : Sim} {op : SimOp} {e : Option PyErr} (h : x.assign lib op = (y, e))
    (he : e ≠ some .assertionError) :
    y.cfg = match op with
      | .upsample v => { x.cfg with upsample := v.toNat }
      | .pixelsX v => { x.cfg with pixelsX := v }
      | .pixelsY v => { x.cfg with pixelsY := v }
      | .quadLevel v => { x.cfg with quadLevel := v.map Int.toNat }
      | .pixelscale v => { x.cfg with pixelscale := v }
      | .psfShape v => { x.cfg with psfShape := v }
      | .psfMode v => { x.cfg with psfMode := v } := by
  have hb : ∀ z : Sim, Sim.build lib z = (y, e) → y.cfg = z.cfg := by
    intro z hz
    rw [← build_cfg (lib := lib) z, hz]
  rcases op with v | v | v | (_ | v) | v | v | v <;> simp only [Sim.assign] at h
  all_goals first
    | exact hb _ h
    | (split at h
       · exact hb _ h
       · simp only [Prod.mk.injEq] at h; exact absurd h.2.symm he)

/-- Switching the sub-pixel quadrature off after having switched it on. -/
example (x : Sim) (hx : x.cfg = ⟨"fft", [3, 3], 1, 4, 4, 2, some 5⟩) :
    (x.assign lib (.quadLevel none)).1.cfg = ⟨"fft", [3, 3], 1, 4, 4, 2, none⟩ := by
  have hb : (Sim.build lib { x with cfg := { x.cfg with quadLevel := none } }).2 = none := by
    unfold Sim.build; simp [hx]
  rw [C39_setting (op := .quadLevel none) (e := none) (Prod.ext rfl hb) (by simp)]
  simp [hx]

/-- Which values are refused. -/
theorem C39_which_rejected (x : Sim) (v : ℤ) (m : String) :
    ((x.assign lib (.upsample v)).2 = some .assertionError ↔ v ≤ 0) ∧
    ((x.assign lib (.quadLevel (some v))).2 = some .assertionError ↔ v ≤ 0) ∧
    ((x.assign lib (.psfMode m)).2 = some .assertionError ↔ m ≠ "fft" ∧ m ≠ "conv2d") := by
  have hb : ∀ z : Sim, (Sim.build lib z).2 ≠ some .assertionError := by
    intro z hz
    unfold Sim.build at hz
    split at hz
    · split at hz <;> simp at hz
    · simp at hz
  refine ⟨?_, ?_, ?_⟩
  · simp only [Sim.assign]
    split
    · rename_i h; exact ⟨fun e => absurd e (hb _), fun e => absurd h (by omega)⟩
    · rename_i h; exact ⟨fun _ => by omega, fun _ => rfl⟩
  · simp only [Sim.assign]
    split
    · rename_i h; exact ⟨fun e => absurd e (hb _), fun e => absurd h (by omega)⟩
    · rename_i h; exact ⟨fun _ => by omega, fun _ => rfl⟩
  · simp only [Sim.assign]
    split
    · rename_i h
      refine ⟨fun e => absurd e (hb _), fun e => ?_⟩
      rcases h with h | h
      · exact absurd h e.1
      · exact absurd h e.2
    · rename_i h
      push Not at h
      exact ⟨fun _ => h, fun _ => rfl⟩

theorem build_ok {x : Sim} (h1 : 2 ≤ x.cfg.psfShape.length) (h2 : x.cfg.upsample ≠ 0) :
    (Sim.build lib x).2 = none := by
  unfold Sim.build
  split
  · rw [if_neg h2]
  · rename_i h
    match hl : x.cfg.psfShape with
    | [] => simp [hl] at h1
    | [a] => simp [hl] at h1
    | a :: b :: l => exact absurd hl (h a b l)

/-- After any sequence of assignments, accepted or refused, the object is what a fresh construction with
its current settings gives.  Missing: assignments of a `psf_shape` with fewer than two entries. -/
theorem C39_history_partial {cfg : SimCfg} {x : Sim} (h : Sim.new lib cfg = .ok x) (ops : List SimOp)
    (hops : ∀ v, SimOp.psfShape v ∈ ops → 2 ≤ v.length) :
    Sim.new lib (x.run lib ops).cfg = .ok (x.run lib ops) := by
  have hx : Sim.new lib x.cfg = .ok x := by
    obtain ⟨_, _, _, _, hc, _⟩ := new_ok h
    rw [hc]; exact h
  clear h
  induction ops generalizing x with
  | nil => exact hx
  | cons op ops ih =>
    obtain ⟨k0, k1, l, hs, -, hu, -⟩ := new_ok hx
    have hl : 2 ≤ x.cfg.psfShape.length := by rw [hs]; simp
    refine ih (x := (x.assign lib op).1) (fun v hv => hops v (List.mem_cons_of_mem _ hv)) ?_
    match hr : x.assign lib op with
    | (y, none) => exact C39_accepted hr
    | (y, some e) =>
      have he : e = .assertionError := by
        have hr' : (x.assign lib op).2 = some e := by rw [hr]
        have key : ∀ z : Sim, 2 ≤ z.cfg.psfShape.length → z.cfg.upsample ≠ 0 → (Sim.build lib z).2 ≠ some e := by
          intro z h1 h2 h3
          rw [build_ok h1 h2] at h3
          cases h3
        unfold Sim.assign at hr'
        split at hr'
        · rename_i v
          split at hr'
          · rename_i hv; exact absurd hr' (key _ hl (by simp only; omega))
          · simp at hr'; exact hr'.symm
        · exact absurd hr' (key _ hl hu)
        · exact absurd hr' (key _ hl hu)
        · exact absurd hr' (key _ hl hu)
        · split at hr'
          · exact absurd hr' (key _ hl hu)
          · simp at hr'; exact hr'.symm
        · exact absurd hr' (key _ hl hu)
        · rename_i v; exact absurd hr' (key _ (hops v (by simp)) hu)
        · split at hr'
          · exact absurd hr' (key _ hl hu)
          · simp at hr'; exact hr'.symm
      subst he
      have := C39_rejected hr
      simp only
      rw [this]; exact hx

/-- A library with trivial fast lengths and a one-point rule. -/
noncomputable def exLib : SimLib := ⟨id, fun n => List.replicate n (0, 2 / n)⟩

/-- Settings used as witness: 3 by 2 pixels, 3 by 3 PSF, upsampling 2. -/
noncomputable def exCfg : SimCfg := ⟨"fft", [3, 3], 1, 3, 2, 2, none⟩

/-- Assigning `psf_shape = (3,)` raises IndexError, yet the new shape stays: no simulator can be
constructed from the settings the object now claims to have. -/
theorem C39_fails : ¬ C39_statement := by
  intro h
  cases hx : Sim.new exLib exCfg with
  | error e =>
    simp [Sim.new, Sim.build, exCfg] at hx
  | ok x =>
    have := h exLib exCfg x hx [.psfShape [3]]
    simp [Sim.run, Sim.assign, Sim.build, Sim.new] at this

/-- The same through the interface: the exception, the changed setting, the unchanged grid, and the
exception that every later assignment to another property then raises. -/
theorem C39_stuck {cfg : SimCfg} {x : Sim} (_h : Sim.new lib cfg = .ok x) (k n : ℕ) :
    ∃ y, x.assign lib (.psfShape [k]) = (y, some .indexError) ∧ y.cfg.psfShape = [k] ∧ y.g = x.g ∧
      (y.assign lib (.pixelsX n)).2 = some .indexError ∧ (y.assign lib (.pixelsX n)).1.cfg.pixelsX = n ∧
      (y.assign lib (.pixelsX n)).1.g = x.g := by
  refine ⟨⟨{ x.cfg with psfShape := [k] }, x.g⟩, ?_, rfl, rfl, ?_, ?_, ?_⟩ <;>
    simp [Sim.assign, Sim.build]

/-- A history with accepted and refused assignments. -/
example : ∃ x, Sim.new exLib exCfg = .ok x ∧
    (x.run exLib [.upsample 3, .upsample 0, .psfMode "magic", .pixelsY 7, .psfShape [1, 5]]).cfg =
      ⟨"fft", [1, 5], 1, 3, 7, 3, none⟩ ∧
    (x.run exLib [.upsample 3, .upsample 0, .psfMode "magic", .pixelsY 7, .psfShape [1, 5]]).g.nPix = (13, 21) := by
  refine ⟨_, rfl, ?_, ?_⟩ <;> simp [Sim.run, Sim.assign, Sim.build, exCfg]

/-! ### C40 -/

/-- The image a simulator returns for the field `mu` on its padded grid if the convolution is the direct
one: mean over the sub-pixels of the direct convolution. -/
noncomputable def directImage (x : Sim) (psf mu : Img) : Img where
  h := x.cfg.pixelsY
  w := x.cfg.pixelsX
  at' i j := (∑ a ∈ Finset.range x.cfg.upsample, ∑ b ∈ Finset.range x.cfg.upsample,
    directConv psf mu (i * x.cfg.upsample + a + psf.h / 2) (j * x.cfg.upsample + b + psf.w / 2))
      / (x.cfg.upsample * x.cfg.upsample : ℕ)

theorem avgPool_slice_same {u px py p0 p1 : ℕ} (hu : u ≠ 0) (mu : Img) (hh : py * u + p1 ≤ mu.h)
    (hw : px * u + p0 ≤ mu.w) (D : ℕ → ℕ → ℝ)
    (hD : ∀ i j, i < py * u → j < px * u → mu.at' (i + p1) (j + p0) = D i j) :
    Img.Same ((mu.slice p1 (py * u + p1) p0 (px * u + p0)).avgPool u)
      ⟨py, px, fun i j => (∑ a ∈ Finset.range u, ∑ b ∈ Finset.range u, D (i * u + a) (j * u + b)) / (u * u : ℕ)⟩ := by
  have hu' : 0 < u := Nat.pos_of_ne_zero hu
  have eh : (min (py * u + p1) mu.h - min p1 mu.h) / u = py := by
    rw [min_eq_left hh, min_eq_left (by omega), Nat.add_sub_cancel, Nat.mul_div_cancel _ hu']
  have ew : (min (px * u + p0) mu.w - min p0 mu.w) / u = px := by
    rw [min_eq_left hw, min_eq_left (by omega), Nat.add_sub_cancel, Nat.mul_div_cancel _ hu']
  refine ⟨eh, ew, fun i j hi hj => ?_⟩
  have hi : i < py := by rw [← eh]; exact hi
  have hj : j < px := by rw [← ew]; exact hj
  simp only [Img.avgPool, Img.slice]
  congr 1
  refine Finset.sum_congr rfl fun a ha => Finset.sum_congr rfl fun b hb => ?_
  rw [Finset.mem_range] at ha hb
  rw [min_eq_left (by omega), min_eq_left (by omega)]
  refine hD _ _ ?_ ?_
  · calc i * u + a < i * u + u := by omega
      _ = (i + 1) * u := by ring
      _ ≤ py * u := Nat.mul_le_mul_right _ hi
  · calc j * u + b < j * u + u := by omega
      _ = (j + 1) * u := by ring
      _ ≤ px * u := Nat.mul_le_mul_right _ hj

/-- With `psf_mode="conv2d"` the image is the direct convolution, for every shape of image and PSF. -/
theorem C40_conv2d {cfg : SimCfg} {x : Sim} (h : Sim.new lib cfg = .ok x) (hm : cfg.psfMode = "conv2d")
    (psf mu : Img) (hpsf : cfg.psfShape = [psf.h, psf.w]) (h1 : ¬(psf.h = 1 ∧ psf.w = 1))
    (hmh : mu.h = x.g.nPix.2) (hmw : mu.w = x.g.nPix.1) :
    Img.Same (x.finish true psf mu) (directImage x psf mu) := by
  obtain ⟨k0, k1, l, hs, hc, hu, hpad, hn, -⟩ := new_ok h
  rw [hpsf] at hs
  simp only [List.cons.injEq] at hs
  obtain ⟨rfl, rfl, -⟩ := hs
  simp only [hn] at hmh hmw
  unfold Sim.finish directImage
  simp only [if_neg h1, if_true, hpad, hc]
  have e : x.convolve psf mu = conv2dSame mu (psf.flip.div psf.sum) := by
    unfold Sim.convolve
    rw [hc, hm, if_neg (by decide), if_pos rfl]
  rw [e]
  refine avgPool_slice_same hu _ ?_ ?_ (fun i j => directConv psf mu (i + psf.h / 2) (j + psf.w / 2)) ?_
  · change _ ≤ mu.h; omega
  · change _ ≤ mu.w; omega
  · intro i j hi hj
    exact conv2dSame_direct psf mu (by omega) (by omega) (by omega) (by omega)

/-- With `psf_mode="fft"` the image is the direct convolution, without wrap-around, provided the
two half-widths of the PSF are equal and each FFT length also covers the other dimension. -/
theorem C40_fft_partial {cfg : SimCfg} {x : Sim} (h : Sim.new lib cfg = .ok x) (hm : cfg.psfMode = "fft")
    (psf mu : Img) (hpsf : cfg.psfShape = [psf.h, psf.w]) (h1 : ¬(psf.h = 1 ∧ psf.w = 1))
    (hmh : mu.h = x.g.nPix.2) (hmw : mu.w = x.g.nPix.1)
    (hsq : psf.h / 2 = psf.w / 2) (hs0 : x.g.nPix.2 ≤ lib.fast x.g.nPix.1)
    (hs1 : x.g.nPix.1 ≤ lib.fast x.g.nPix.2) :
    Img.Same (x.finish true psf mu) (directImage x psf mu) := by
  obtain ⟨k0, k1, l, hs, hc, hu, hpad, hn, hss, -⟩ := new_ok h
  rw [hpsf] at hs
  simp only [List.cons.injEq] at hs
  obtain ⟨rfl, rfl, -⟩ := hs
  rw [← hmh] at hs0
  rw [← hmw] at hs1
  have hmh' := hmh
  have hmw' := hmw
  simp only [hn] at hmh' hmw'
  unfold Sim.finish directImage
  simp only [if_neg h1, if_true, hpad, hc]
  set F := (irfft2 (fun u v => rfft2 mu (lib.fast x.g.nPix.1) (lib.fast x.g.nPix.2) u v *
    rfft2 (psf.div psf.sum) (lib.fast x.g.nPix.1) (lib.fast x.g.nPix.2) u v)
    (lib.fast x.g.nPix.1) (lib.fast x.g.nPix.2)) with hF
  have e : x.convolve psf mu = (F.roll (-(psf.h / 2 : ℕ)) (-(psf.w / 2 : ℕ))).slice 0 (lib.fast x.g.nPix.1) 0
      (lib.fast x.g.nPix.2) := by
    unfold Sim.convolve
    simp only [hc, hm, if_true, hss, hpad, hF]
    rw [hsq]
  rw [e]
  refine avgPool_slice_same hu _ ?_ ?_ (fun i j => directConv psf mu (i + psf.h / 2) (j + psf.w / 2)) ?_
  · change _ ≤ min (lib.fast x.g.nPix.1) (lib.fast x.g.nPix.1) - min 0 (lib.fast x.g.nPix.1)
    rw [min_self, Nat.zero_min]; omega
  · change _ ≤ min (lib.fast x.g.nPix.2) (lib.fast x.g.nPix.2) - min 0 (lib.fast x.g.nPix.2)
    rw [min_self, Nat.zero_min]; omega
  · intro i j hi hj
    have := fft_direct psf mu hs0 hs1 (i := i + psf.h / 2) (j := j + psf.w / 2) (by omega) (by omega) (by omega)
      (by omega)
    rw [← this]
    simp only [Img.slice, Nat.zero_min, Nat.add_zero]
    rfl

/-- Both modes read the same grid. -/
theorem grid_mode {cfg : SimCfg} {m m' : String} {x y : Sim} (hx : Sim.new lib { cfg with psfMode := m } = .ok x)
    (hy : Sim.new lib { cfg with psfMode := m' } = .ok y) : x.g = y.g := by
  obtain ⟨k0, k1, l, hs, -, -, h1, h2, h3, h4, h5⟩ := new_ok hx
  obtain ⟨k0', k1', l', hs', -, -, h1', h2', h3', h4', h5'⟩ := new_ok hy
  simp only at hs hs' h2 h2' h4 h4'
  rw [hs] at hs'
  simp only [List.cons.injEq] at hs'
  obtain ⟨rfl, rfl, -⟩ := hs'
  have e2 : x.g.nPix = y.g.nPix := by rw [h2, h2']
  obtain ⟨xc, ⟨a, b, c, d, e⟩⟩ := x
  obtain ⟨yc, ⟨a', b', c', d', e'⟩⟩ := y
  simp only at *
  subst e2
  simp only [SimGrid.mk.injEq]
  exact ⟨h1.trans h1'.symm, trivial, h5.trans h5'.symm, h4.trans h4'.symm, h3.trans h3'.symm⟩

theorem scene_dims (x : Sim) (c : SimScene) : (x.scene c).h = x.g.nPix.2 ∧ (x.scene c).w = x.g.nPix.1 := by
  have key : ∀ mu : Img, mu.h = x.g.nPix.2 ∧ mu.w = x.g.nPix.1 →
      (match c.lensLight, c.addLensLight with
        | some f, true => { mu with at' := fun i j => mu.at' i j + (x.g.sample f c.x0 c.y0).at' i j }
        | _, _ => mu : Img).h = x.g.nPix.2 ∧
      (match c.lensLight, c.addLensLight with
        | some f, true => { mu with at' := fun i j => mu.at' i j + (x.g.sample f c.x0 c.y0).at' i j }
        | _, _ => mu : Img).w = x.g.nPix.1 := by
    intro mu h
    split <;> exact h
  unfold Sim.scene
  refine key _ ?_
  split
  · split <;> exact ⟨rfl, rfl⟩
  · exact ⟨rfl, rfl⟩

theorem Img.Same.symm {a b : Img} (h : a.Same b) : b.Same a :=
  ⟨h.1.symm, h.2.1.symm, fun i j hi hj => (h.2.2 i j (h.1 ▸ hi) (h.2.1 ▸ hj)).symm⟩

theorem Img.Same.trans {a b c : Img} (h : a.Same b) (h' : b.Same c) : a.Same c :=
  ⟨h.1.trans h'.1, h.2.1.trans h'.2.1, fun i j hi hj =>
    (h.2.2 i j hi hj).trans (h'.2.2 i j (h.1 ▸ hi) (h.2.1 ▸ hj))⟩

/-- The claim: the two modes give the same image. -/
def C40_statement : Prop :=
  ∀ (lib : SimLib) (_ : ∀ n, n ≤ lib.fast n) (cfg : SimCfg) (x y : Sim),
    Sim.new lib { cfg with psfMode := "fft" } = .ok x → Sim.new lib { cfg with psfMode := "conv2d" } = .ok y →
    ∀ c : SimScene, cfg.psfShape = [c.psf.h, c.psf.w] → Img.Same (x.call c) (y.call c)

/-- The two modes agree for square images with a square PSF, of any (odd or even) size, for every
scene.  Missing: images or PSFs that are not square. -/
theorem C40_agree_partial (hfast : ∀ n, n ≤ lib.fast n) {cfg : SimCfg} {x y : Sim}
    (hx : Sim.new lib { cfg with psfMode := "fft" } = .ok x)
    (hy : Sim.new lib { cfg with psfMode := "conv2d" } = .ok y) (c : SimScene)
    (hpsf : cfg.psfShape = [c.psf.h, c.psf.w]) (hpsq : c.psf.h = c.psf.w) (hsq : cfg.pixelsX = cfg.pixelsY) :
    Img.Same (x.call c) (y.call c) := by
  have hg := grid_mode hx hy
  have hscene : x.scene c = y.scene c := by
    obtain ⟨xc, xg⟩ := x
    obtain ⟨yc, yg⟩ := y
    simp only at hg
    subst hg
    rfl
  unfold Sim.call
  rw [← hscene]
  obtain ⟨k0, k1, l, hs, hxc, hu, hpad, hn, hss, -⟩ := new_ok hx
  obtain ⟨-, -, -, -, hyc, -⟩ := new_ok hy
  simp only at hs hn
  rw [hpsf] at hs
  simp only [List.cons.injEq] at hs
  obtain ⟨rfl, rfl, -⟩ := hs
  by_cases hconv : c.psfConvolve = true ∧ ¬(c.psf.h = 1 ∧ c.psf.w = 1)
  · have e1 := C40_fft_partial hx rfl c.psf (x.scene c) hpsf hconv.2 (scene_dims x c).1 (scene_dims x c).2
      (by rw [hpsq]) (by rw [hn, hpsq, hsq]; exact hfast _) (by rw [hn, hpsq, hsq]; exact hfast _)
    have e2 := C40_conv2d hy rfl c.psf (x.scene c) hpsf hconv.2 (by rw [← hg]; exact (scene_dims x c).1)
      (by rw [← hg]; exact (scene_dims x c).2)
    have e3 : directImage x c.psf (x.scene c) = directImage y c.psf (x.scene c) := by
      unfold directImage
      rw [hxc, hyc]
    rw [hconv.1]
    exact e1.trans (e3 ▸ e2.symm)
  · have e : ∀ z : Sim, z.finish c.psfConvolve c.psf (x.scene c) =
        ((x.scene c).slice z.g.psfPad.2 (z.cfg.pixelsY * z.cfg.upsample + z.g.psfPad.2) z.g.psfPad.1
          (z.cfg.pixelsX * z.cfg.upsample + z.g.psfPad.1)).avgPool z.cfg.upsample := by
      intro z
      unfold Sim.finish
      have : (if c.psf.h = 1 ∧ c.psf.w = 1 then false else c.psfConvolve) = false := by
        split
        · rfl
        · rename_i h1
          rw [not_and_or, not_not] at hconv
          rcases hconv with h | h
          · simpa using h
          · exact absurd h h1
      simp only [this]
      rfl
    rw [e x, e y, hg, hxc, hyc]
    exact ⟨rfl, rfl, fun _ _ _ _ => rfl⟩

theorem bind_some_getElem {A : Type*} {L : List (List A)} {i j : ℕ} {v : A} (h : (L[i]?.bind (·[j]?)) = some v) :
    ∃ r, L[i]? = some r ∧ r[j]? = some v := by
  cases hL : L[i]? with
  | none => rw [hL] at h; cases h
  | some r => rw [hL] at h; exact ⟨r, rfl, h⟩

/-- The value of pixel `(i, j)` of the padded grid: the quadrature over the pixel, or the value at its
centre. -/
theorem sample_at {cfg : SimCfg} {x : Sim} (h : Sim.new lib cfg = .ok x) (f : ℝ → ℝ → ℝ) (x0 y0 : ℝ) {i j : ℕ}
    (hi : i < x.g.nPix.2) (hj : j < x.g.nPix.1) :
    let p := cfg.pixelscale / cfg.upsample
    let X := ((j : ℝ) - ((x.g.nPix.1 : ℝ) - 1) / 2) * p
    let Y := ((i : ℝ) - ((x.g.nPix.2 : ℝ) - 1) / 2) * p
    (x.g.sample f x0 y0).at' i j = match cfg.quadLevel with
      | some q => if q > 1 then quad (lib.legendre q) (fun a b => f (a + x0) (b + y0)) p X Y
        else f (X + x0) (Y + y0)
      | none => f (X + x0) (Y + y0) := by
  intro p X Y
  obtain ⟨k0, k1, l, hs, hc, hu, hpad, hn, hss, hw, hgrid⟩ := new_ok h
  obtain ⟨-, -, -, -, hE⟩ := C06_entries p x.g.nPix.1 (some x.g.nPix.2)
  obtain ⟨hX, hY⟩ := hE i j hi hj
  obtain ⟨rX, hrX, hX⟩ := bind_some_getElem hX
  obtain ⟨rY, hrY, hY⟩ := bind_some_getElem hY
  have e : (x.g.grid.getD i []).getD j [] = simSub lib cfg.quadLevel p X Y := by
    rw [hgrid]
    simp only [List.getD_eq_getElem?_getD, List.getElem?_zipWith]
    rw [hrX, hrY]
    simp only [Option.getD_some, List.getElem?_zipWith]
    rw [hX, hY]
    rfl
  simp only [SimGrid.sample]
  rw [e, hw]
  clear e hw hgrid hX hY
  change quadIntegrate ((simSub lib cfg.quadLevel p X Y).map _) (simWeights lib cfg.quadLevel p) = _
  generalize cfg.quadLevel = ql
  unfold simSub simWeights
  have h1 : ∀ a b : ℝ, quadIntegrate (([(a, b)] : List (ℝ × ℝ)).map fun t => f (t.1 + x0) (t.2 + y0)) [1]
      = f (a + x0) (b + y0) := by
    intro a b; simp [quadIntegrate]
  match ql with
  | none => exact h1 _ _
  | some q =>
    by_cases hq : q > 1
    · simp only [hq, if_true]
      unfold quad quadGrid
      simp only [List.map_map]
      rfl
    · simp only [hq, if_false]
      exact h1 _ _

end Caustics

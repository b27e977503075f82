import Verif.Lemmas.PixConv
import Verif.Props.LensImage
import Mathlib.Tactic.NormNum
import Mathlib.Algebra.BigOperators.Field

/-!
C50: maps of `PixelatedConvergence`.  C56: switching its convolution mode.

The kernels are tabulated at half-integer multiples of the pixel size, so a value of the `fft` map is
the field of the pixels half a pixel away from where it is reported; the `conv2d` map has twice as many
pixels as the `fft` map and is stretched over the same field of view.
-/

namespace Caustics

/-! ### The maps -/

/-- A kernel on the doubled grid that is `φ x y` at the tabulated coordinates. -/
structure IsKernel (ps : ℝ) (n : ℕ) (K : Img) (φ : ℝ → ℝ → ℝ) : Prop where
  h : K.h = 2 * n
  w : K.w = 2 * n
  val : ∀ i j, i < 2 * n → j < 2 * n → K.at' i j = φ (kerPos ps n j) (kerPos ps n i)

theorem isKernel_x (ps : ℝ) (n : ℕ) : IsKernel ps n (buildKernels ps n).1 fun x y => x / (x ^ 2 + y ^ 2) :=
  ⟨rfl, rfl, fun _ _ hi hj => (kernels_at ps n hi hj).1⟩

theorem isKernel_y (ps : ℝ) (n : ℕ) : IsKernel ps n (buildKernels ps n).2.1 fun x y => y / (x ^ 2 + y ^ 2) :=
  ⟨rfl, rfl, fun _ _ hi hj => (kernels_at ps n hi hj).2.1⟩

theorem isKernel_pot (ps : ℝ) (n : ℕ) :
    IsKernel ps n (buildKernels ps n).2.2 fun x y => Real.log (Real.sqrt (x ^ 2 + y ^ 2)) :=
  ⟨rfl, rfl, fun _ _ hi hj => (kernels_at ps n hi hj).2.2⟩

section Maps
variable {fast : ℕ → ℕ} {ps : ℝ} {n : ℕ} {κ K : Img} {φ : ℝ → ℝ → ℝ}

theorem convMap_fft (fast : ℕ → ℕ) {κ y : Img} (G : ℕ → ℕ → ℂ) (ps : ℝ) (n : ℕ) {padding : String}
    (hy : padMap κ n padding = .ok y) : convMap fast κ (.spectrum G) ps n padding "fft"
      = .ok (unpadFft fast ((irfft2 (fun u v => rfft2 y (fftSize fast n) (fftSize fast n) u v * G u v)
          (fftSize fast n) (fftSize fast n)).scale (ps ^ 2 / Real.pi)) n) := by
  simp [convMap, fft2Padded, hy]

theorem convMap_conv2d (fast : ℕ → ℕ) (κ K : Img) (ps : ℝ) (n : ℕ) (padding : String) :
    convMap fast κ (.direct K) ps n padding "conv2d" = .ok ((conv2dSame K κ.flip).scale (ps ^ 2 / Real.pi)) := by
  simp [convMap]

theorem padMap_zero (κ : Img) (n : ℕ) : padMap κ n "zero" = .ok κ := by simp [padMap]

/-- The `fft` map when twice the size is a fast length. -/
theorem fft_map (hK : IsKernel ps n K φ) (hn : 1 ≤ n) (hf : fast (2 * n) = 2 * n) (hh : κ.h = n) (hw : κ.w = n) :
    ∃ m, convMap fast κ (.spectrum (rfft2 K (fftSize fast n) (fftSize fast n))) ps n "zero" "fft" = .ok m ∧
      m.h = n ∧ m.w = n ∧ ∀ i j, i < n → j < n → m.at' i j
        = ps ^ 2 / Real.pi * ∑ a ∈ Finset.range n, ∑ b ∈ Finset.range n, κ.at' a b *
            φ (pixPos ps n j + ps / 2 - pixPos ps n b) (pixPos ps n i + ps / 2 - pixPos ps n a) := by
  have hs : fftSize fast n = 2 * n := hf
  refine ⟨_, convMap_fft fast _ ps n (padMap_zero κ n), ?_, ?_, ?_⟩
  · change min n (fftSize fast n) - min 0 (fftSize fast n) = n
    omega
  · change min n (fftSize fast n) - min 0 (fftSize fast n) = n
    omega
  · intro i j hi hj
    rw [fftMap_zero fast n κ K _ hh hw (by omega) hi hj, mul_comm]
    congr 1
    refine Finset.sum_congr rfl fun a ha => Finset.sum_congr rfl fun b hb => ?_
    rw [Finset.mem_range] at ha hb
    rw [hs, Img.pad, if_pos (by rw [hK.h, hK.w]; omega), hK.val _ _ (by omega) (by omega)]
    have e : (2 * n + 1) / 2 = n := by omega
    have e1 : ((j + n - b : ℕ) : ℝ) = (j : ℝ) + n - b := by
      rw [Nat.cast_sub (by omega)]; push_cast; ring
    have e2 : ((i + n - a : ℕ) : ℝ) = (i : ℝ) + n - a := by
      rw [Nat.cast_sub (by omega)]; push_cast; ring
    rw [e]
    congr 2
    · unfold kerPos pixPos; rw [e1]; ring
    · unfold kerPos pixPos; rw [e2]; ring

/-- The `conv2d` map; `padding` is not used. -/
theorem conv2d_map (padding : String) (hK : IsKernel ps n K φ) (hh : κ.h = n) (hw : κ.w = n) :
    ∃ m, convMap fast κ (.direct K) ps n padding "conv2d" = .ok m ∧ m.h = 2 * n ∧ m.w = 2 * n ∧
      ∀ i j : ℕ, m.at' i j = ps ^ 2 / Real.pi * ∑ a ∈ Finset.range n, ∑ b ∈ Finset.range n, κ.at' a b *
        K.padZ ((i : ℤ) + (n / 2 : ℕ) - a) ((j : ℤ) + (n / 2 : ℕ) - b) := by
  refine ⟨_, convMap_conv2d fast κ K ps n padding, hK.h, hK.w, ?_⟩
  intro i j
  change (conv2dSame K κ.flip).at' i j * _ = _
  rw [convMap_at κ K hh hw i j, mul_comm]

end Maps

/-- What the constructor makes for the `fft` mode without padding. -/
theorem new_fft (fast : ℕ → ℕ) (ps : ℝ) (n : ℕ) (window : ℝ) :
    PixLens.new fast ps n n "fft" "zero" window = .ok ⟨n, ps, "zero", (buildKernels ps n).1, (buildKernels ps n).2.1,
      (buildKernels ps n).2.2, some (.spectrum (rfft2 (buildKernels ps n).1 (fftSize fast n) (fftSize fast n))),
      some (.spectrum (rfft2 (buildKernels ps n).2.1 (fftSize fast n) (fftSize fast n))),
      some (.spectrum (rfft2 (buildKernels ps n).2.2 (fftSize fast n) (fftSize fast n))), some "fft"⟩ := by
  simp [PixLens.new, PixLens.setMode]

/-- What the constructor makes for the `fft` mode. -/
theorem new_fft_any (fast : ℕ → ℕ) (ps : ℝ) (n : ℕ) (padding : String) (window : ℝ) :
    ∃ ax ay, PixLens.new fast ps n n "fft" padding window = .ok ⟨n, ps, padding, ax, ay,
      (buildKernels ps n).2.2, some (.spectrum (rfft2 ax (fftSize fast n) (fftSize fast n))),
      some (.spectrum (rfft2 ay (fftSize fast n) (fftSize fast n))),
      some (.spectrum (rfft2 (buildKernels ps n).2.2 (fftSize fast n) (fftSize fast n))), some "fft"⟩ := by
  refine ⟨if padding ≠ "zero" ∧ window > 0 then (buildKernels ps n).1.mul (buildWindow window (2 * n))
    else (buildKernels ps n).1, if padding ≠ "zero" ∧ window > 0 then (buildKernels ps n).2.1.mul (buildWindow window (2 * n))
    else (buildKernels ps n).2.1, ?_⟩
  simp [PixLens.new, PixLens.setMode]

/-- What the constructor makes for the `conv2d` mode. -/
theorem new_conv2d (fast : ℕ → ℕ) (ps : ℝ) (n : ℕ) (padding : String) (window : ℝ) :
    PixLens.new fast ps n n "conv2d" padding window = .ok ⟨n, ps, padding, (buildKernels ps n).1,
      (buildKernels ps n).2.1, (buildKernels ps n).2.2, some (.direct (buildKernels ps n).1),
      some (.direct (buildKernels ps n).2.1), some (.direct (buildKernels ps n).2.2), some "conv2d"⟩ := by
  simp [PixLens.new, PixLens.setMode]

theorem scale_dims (κ : Img) (s : ℝ) : (κ.scale s).h = κ.h ∧ (κ.scale s).w = κ.w := ⟨rfl, rfl⟩

/-- C50: in `fft` mode without padding, if twice the number of pixels is a fast FFT length, the value
reported at the centre of pixel `(i, j)` is the direct sum over all pixels, but for the position half a
pixel further along both axes. -/
theorem C50_fft_direct_partial {fast : ℕ → ℕ} {ps : ℝ} (hps : ps ≠ 0) {n : ℕ} (hn : 2 ≤ n) (hf : fast (2 * n) = 2 * n)
    {κ : Img} (hh : κ.h = n) (hw : κ.w = n) (window scale x0 y0 : ℝ) :
    ∃ l, PixLens.new fast ps n n "fft" "zero" window = .ok l ∧ ∀ i j, i < n → j < n →
      l.deflection fast (x0 + pixPos ps n j) (y0 + pixPos ps n i) x0 y0 κ scale
        = .ok (massDeflectionX ps (κ.scale scale) (pixPos ps n j + ps / 2) (pixPos ps n i + ps / 2),
            massDeflectionY ps (κ.scale scale) (pixPos ps n j + ps / 2) (pixPos ps n i + ps / 2)) ∧
      l.potential fast (x0 + pixPos ps n j) (y0 + pixPos ps n i) x0 y0 κ scale
        = .ok (massPotential ps (κ.scale scale) (pixPos ps n j + ps / 2) (pixPos ps n i + ps / 2)) := by
  obtain ⟨mx, hmx, hxh, hxw, hxv⟩ := fft_map (fast := fast) (κ := κ.scale scale) (isKernel_x ps n) (by omega) hf hh hw
  obtain ⟨my, hmy, hyh, hyw, hyv⟩ := fft_map (fast := fast) (κ := κ.scale scale) (isKernel_y ps n) (by omega) hf hh hw
  obtain ⟨mp, hmp, hph, hpw, hpv⟩ := fft_map (fast := fast) (κ := κ.scale scale) (isKernel_pot ps n) (by omega) hf hh hw
  refine ⟨_, new_fft fast ps n window, fun i j hi hj => ?_⟩
  have pos : ∀ (c : ℝ) (k : ℕ), (c + pixPos ps n k - c) / (n * ps / 2) = centre n k := by
    intro c k
    rw [add_sub_cancel_left]
    exact pixPos_centre hps (by omega) k
  have read : ∀ m : Img, m.h = n → m.w = n →
      readMap m x0 y0 (n * ps) (x0 + pixPos ps n j) (y0 + pixPos ps n i) = .ok (m.at' i j) := by
    intro m h1 h2
    refine readMap_centre m (by omega) (by omega) (by omega) (by omega) ?_ ?_
    · rw [h2]; exact pos x0 j
    · rw [h1]; exact pos y0 i
  constructor
  · simp only [PixLens.deflection, deflectionPixConv, hmx, hmy, bind, Except.bind, read mx hxh hxw, read my hyh hyw,
      pure, Except.pure, hxv i j hi hj, hyv i j hi hj, massDeflectionX, massDeflectionY, (scale_dims κ scale).1,
      (scale_dims κ scale).2, hh, hw]
  · simp only [PixLens.potential, potentialPixConv, hmp, bind, Except.bind, read mp hph hpw, hpv i j hi hj,
      massPotential, (scale_dims κ scale).1, (scale_dims κ scale).2, hh, hw]

/-- C50: the `conv2d` map contains the `fft` map, as the block that starts at pixel `n - n/2`. -/
theorem C50_same_values {fast : ℕ → ℕ} {ps : ℝ} {n : ℕ} (hn : 1 ≤ n) (hf : fast (2 * n) = 2 * n) {κ K : Img}
    {φ : ℝ → ℝ → ℝ} (hK : IsKernel ps n K φ) (hh : κ.h = n) (hw : κ.w = n) (padding : String) :
    ∃ m1 m2, convMap fast κ (.spectrum (rfft2 K (fftSize fast n) (fftSize fast n))) ps n "zero" "fft" = .ok m1 ∧
      convMap fast κ (.direct K) ps n padding "conv2d" = .ok m2 ∧ m1.h = n ∧ m1.w = n ∧ m2.h = 2 * n ∧ m2.w = 2 * n ∧
      ∀ i j, i < n → j < n → m1.at' i j = m2.at' (i + (n - n / 2)) (j + (n - n / 2)) := by
  obtain ⟨m1, h1, h1h, h1w, h1v⟩ := fft_map (fast := fast) hK hn hf hh hw
  obtain ⟨m2, h2, h2h, h2w, h2v⟩ := conv2d_map (fast := fast) (κ := κ) padding hK hh hw
  refine ⟨m1, m2, h1, h2, h1h, h1w, h2h, h2w, fun i j hi hj => ?_⟩
  rw [h1v i j hi hj, h2v]
  congr 1
  refine Finset.sum_congr rfl fun a ha => Finset.sum_congr rfl fun b hb => ?_
  rw [Finset.mem_range] at ha hb
  have e1 : ((i + (n - n / 2) : ℕ) : ℤ) + (n / 2 : ℕ) - a = ((i + n - a : ℕ) : ℤ) := by omega
  have e2 : ((j + (n - n / 2) : ℕ) : ℤ) + (n / 2 : ℕ) - b = ((j + n - b : ℕ) : ℤ) := by omega
  rw [e1, e2, padZ_pad, Img.pad, if_pos (by rw [hK.h, hK.w]; omega), hK.val _ _ (by omega) (by omega)]
  have e3 : ((j + n - b : ℕ) : ℝ) = (j : ℝ) + n - b := by
    rw [Nat.cast_sub (by omega)]; push_cast; ring
  have e4 : ((i + n - a : ℕ) : ℝ) = (i : ℝ) + n - a := by
    rw [Nat.cast_sub (by omega)]; push_cast; ring
  congr 2
  · unfold kerPos pixPos; rw [e3]; ring
  · unfold kerPos pixPos; rw [e4]; ring

/-! ### Symmetry -/

theorem sum_reflect2 (n : ℕ) (f : ℕ → ℕ → ℝ) :
    ∑ a ∈ Finset.range n, ∑ b ∈ Finset.range n, f (n - 1 - a) (n - 1 - b)
      = ∑ a ∈ Finset.range n, ∑ b ∈ Finset.range n, f a b := by
  rw [Finset.sum_range_reflect (fun a => ∑ b ∈ Finset.range n, f a (n - 1 - b)) n]
  exact Finset.sum_congr rfl fun a _ => Finset.sum_range_reflect (fun b => f a b) n

/-- C50: the deflection maps of a point-symmetric convergence map in `fft` mode are antisymmetric under
the half turn about the pixel position `(n - 2) / 2`, not about the centre `(n - 1) / 2` of the map. -/
theorem C50_fft_antisymmetric {fast : ℕ → ℕ} {ps : ℝ} {n : ℕ} (hf : fast (2 * n) = 2 * n) {κ K : Img}
    {φ : ℝ → ℝ → ℝ} (hK : IsKernel ps n K φ) (hodd : ∀ x y, φ (-x) (-y) = -φ x y) (hh : κ.h = n) (hw : κ.w = n)
    (hsym : PointSymmetric κ) {m : Img}
    (hm : convMap fast κ (.spectrum (rfft2 K (fftSize fast n) (fftSize fast n))) ps n "zero" "fft" = .ok m)
    {i j : ℕ} (hi : i + 2 ≤ n) (hj : j + 2 ≤ n) : m.at' (n - 2 - i) (n - 2 - j) = -m.at' i j := by
  obtain ⟨m', h1, _, _, hv⟩ := fft_map (fast := fast) hK (by omega) hf hh hw
  rw [hm, Except.ok.injEq] at h1
  subst h1
  rw [hv _ _ (by omega) (by omega), hv _ _ (by omega) (by omega), ← mul_neg, ← Finset.sum_neg_distrib]
  congr 1
  rw [← sum_reflect2 n]
  refine Finset.sum_congr rfl fun a ha => ?_
  rw [← Finset.sum_neg_distrib]
  refine Finset.sum_congr rfl fun b hb => ?_
  rw [Finset.mem_range] at ha hb
  have hs := hsym a b (by omega) (by omega)
  rw [hh, hw] at hs
  rw [hs, ← mul_neg, ← hodd]
  have e : ∀ k q : ℕ, k + 2 ≤ n → q < n →
      pixPos ps n (n - 2 - k) + ps / 2 - pixPos ps n (n - 1 - q) = -(pixPos ps n k + ps / 2 - pixPos ps n q) := by
    intro k q hk hq
    unfold pixPos
    have e1 : ((n - 2 - k : ℕ) : ℝ) = (n : ℝ) - 2 - k := by
      rw [Nat.sub_sub, Nat.cast_sub (by omega)]; push_cast; ring
    have e2 : ((n - 1 - q : ℕ) : ℝ) = (n : ℝ) - 1 - q := by
      rw [Nat.sub_sub, Nat.cast_sub (by omega)]; push_cast; ring
    rw [e1, e2]; ring
  rw [e j b hj hb, e i a hi ha]

theorem odd_x (x y : ℝ) : -x / ((-x) ^ 2 + (-y) ^ 2) = -(x / (x ^ 2 + y ^ 2)) := by
  rw [neg_sq, neg_sq, neg_div]

theorem odd_y (x y : ℝ) : -y / ((-x) ^ 2 + (-y) ^ 2) = -(y / (x ^ 2 + y ^ 2)) := by
  rw [neg_sq, neg_sq, neg_div]

/-- Reading a map halfway between the centres of four pixels. -/
theorem readMap_mid (m : Img) {x0 y0 fov x y : ℝ} {i j : ℕ} (hi : i + 1 < m.h) (hj : j + 1 < m.w)
    (hx : pixCoord m.w ((x - x0) / (fov / 2)) = j + 1 / 2) (hy : pixCoord m.h ((y - y0) / (fov / 2)) = i + 1 / 2) :
    readMap m x0 y0 fov x y
      = .ok ((m.at' i j + m.at' i (j + 1) + m.at' (i + 1) j + m.at' (i + 1) (j + 1)) / 4) := by
  unfold readMap
  rw [C09_cell m.toFin _ _ "zeros" (Or.inr (Or.inr rfl)) i j hi hj (by rw [hx]; linarith) (by rw [hx]; linarith)
    (by rw [hy]; linarith) (by rw [hy]; linarith), hx, hy]
  congr 1
  unfold bilinear
  simp only [Img.toFin]
  ring

/-- C50: so in `fft` mode the deflection by a point-symmetric map vanishes half a pixel away from its
centre. -/
theorem C50_fft_centre_partial {fast : ℕ → ℕ} {ps : ℝ} (hps : ps ≠ 0) {n : ℕ} (hn : 2 ≤ n) (hf : fast (2 * n) = 2 * n)
    {κ : Img} (hh : κ.h = n) (hw : κ.w = n) (hsym : PointSymmetric κ) (window scale x0 y0 : ℝ) :
    ∃ l, PixLens.new fast ps n n "fft" "zero" window = .ok l ∧
      l.deflection fast (x0 - ps / 2) (y0 - ps / 2) x0 y0 κ scale = .ok (0, 0) := by
  obtain ⟨mx, hmx, hxh, hxw, -⟩ := fft_map (fast := fast) (κ := κ.scale scale) (isKernel_x ps n) (by omega) hf hh hw
  obtain ⟨my, hmy, hyh, hyw, -⟩ := fft_map (fast := fast) (κ := κ.scale scale) (isKernel_y ps n) (by omega) hf hh hw
  refine ⟨_, new_fft fast ps n window, ?_⟩
  have hsym' : PointSymmetric (κ.scale scale) := by
    intro a b ha hb
    change κ.at' _ _ * scale = κ.at' _ _ * scale
    rw [← hsym a b ha hb]; rfl
  have ax := @C50_fft_antisymmetric fast ps n hf (κ.scale scale) _ _ (isKernel_x ps n) odd_x hh hw hsym' mx hmx
  have ay := @C50_fft_antisymmetric fast ps n hf (κ.scale scale) _ _ (isKernel_y ps n) odd_y hh hw hsym' my hmy
  have hn' : (n : ℝ) ≠ 0 := Nat.cast_ne_zero.2 (by omega)
  have read : ∀ m : Img, m.h = n → m.w = n →
      (∀ {i j : ℕ}, i + 2 ≤ n → j + 2 ≤ n → m.at' (n - 2 - i) (n - 2 - j) = -m.at' i j) →
      readMap m x0 y0 (n * ps) (x0 - ps / 2) (y0 - ps / 2) = .ok 0 := by
    intro m h1 h2 ha
    rcases Nat.even_or_odd' n with ⟨q, hq | hq⟩
    · have e : ∀ c : ℝ, (c - ps / 2 - c) / (n * ps / 2) = centre n (q - 1) := by
        intro c
        rw [← pixPos_centre hps (by omega)]
        congr 1
        unfold pixPos
        rw [Nat.cast_sub (by omega), hq]
        push_cast
        ring
      rw [readMap_centre m (i := q - 1) (j := q - 1) (by omega) (by omega) (by omega) (by omega) (by rw [h2]; exact e x0)
        (by rw [h1]; exact e y0)]
      have := ha (i := q - 1) (j := q - 1) (by omega) (by omega)
      rw [show n - 2 - (q - 1) = q - 1 by omega] at this
      congr 1
      linarith
    · have e : ∀ c : ℝ, pixCoord n ((c - ps / 2 - c) / (n * ps / 2)) = ((q - 1 : ℕ) : ℝ) + 1 / 2 := by
        intro c
        unfold pixCoord
        rw [Nat.cast_sub (by omega)]
        have : (c - ps / 2 - c) / (n * ps / 2) = -1 / n := by field_simp; ring
        rw [this]
        have hq' : (n : ℝ) = 2 * q + 1 := by rw [hq]; push_cast; ring
        field_simp
        rw [hq']
        push_cast
        ring
      rw [readMap_mid m (i := q - 1) (j := q - 1) (by omega) (by omega) (by rw [h2]; exact e x0) (by rw [h1]; exact e y0)]
      have a1 := ha (i := q - 1) (j := q - 1) (by omega) (by omega)
      have a2 := ha (i := q - 1) (j := q) (by omega) (by omega)
      rw [show n - 2 - (q - 1) = q by omega] at a1
      rw [show n - 2 - (q - 1) = q by omega, show n - 2 - q = q - 1 by omega] at a2
      rw [show q - 1 + 1 = q by omega, a1, a2]
      congr 1
      ring
  simp only [PixLens.deflection, deflectionPixConv, hmx, hmy, bind, Except.bind, read mx hxh hxw ax, read my hyh hyw ay,
    pure, Except.pure]

/-- C50: in `conv2d` mode the deflection by a point-symmetric map with an odd number of pixels vanishes at
the centre of the map. -/
theorem C50_conv2d_centre {fast : ℕ → ℕ} {ps : ℝ} {n : ℕ} (hn : n % 2 = 1) {κ : Img} (hh : κ.h = n) (hw : κ.w = n)
    (hsym : PointSymmetric κ) (padding : String) (window scale x0 y0 : ℝ) :
    ∃ l, PixLens.new fast ps n n "conv2d" padding window = .ok l ∧
      l.deflection fast x0 y0 x0 y0 κ scale = .ok (0, 0) := by
  refine ⟨_, new_conv2d fast ps n padding window, ?_⟩
  have anti : ∀ (K : Img) (φ : ℝ → ℝ → ℝ), IsKernel ps n K φ → (∀ x y, φ (-x) (-y) = -φ x y) →
      ∃ m, convMap fast (κ.scale scale) (.direct K) ps n padding "conv2d" = .ok m ∧ m.h = 2 * n ∧ m.w = 2 * n ∧
        ∀ i j, i < 2 * n → j < 2 * n → m.at' (2 * n - 1 - i) (2 * n - 1 - j) = -m.at' i j := by
    intro K φ hK hodd
    obtain ⟨m, h1, h2, h3, hv⟩ := conv2d_map (fast := fast) (κ := κ.scale scale) padding hK hh hw
    refine ⟨m, h1, h2, h3, fun i j hi hj => ?_⟩
    have hKa : ∀ p q : ℤ, K.padZ (2 * n - 1 - p) (2 * n - 1 - q) = -K.padZ p q := by
      intro p q
      by_cases hc : (0 ≤ p ∧ p < 2 * n) ∧ (0 ≤ q ∧ q < 2 * n)
      · obtain ⟨⟨p0, p1⟩, q0, q1⟩ := hc
        obtain ⟨p', rfl⟩ := Int.eq_ofNat_of_zero_le p0
        obtain ⟨q', rfl⟩ := Int.eq_ofNat_of_zero_le q0
        have e1 : (2 * (n : ℤ) - 1 - (p' : ℤ)) = ((2 * n - 1 - p' : ℕ) : ℤ) := by omega
        have e2 : (2 * (n : ℤ) - 1 - (q' : ℤ)) = ((2 * n - 1 - q' : ℕ) : ℤ) := by omega
        have e3 : ∀ k : ℕ, k < 2 * n → kerPos ps n (2 * n - 1 - k) = -kerPos ps n k := by
          intro k hk
          unfold kerPos
          rw [Nat.sub_sub, Nat.cast_sub (by omega)]
          push_cast
          ring
        rw [e1, e2, padZ_pad, padZ_pad, Img.pad, Img.pad, if_pos (by rw [hK.h, hK.w]; omega),
          if_pos (by rw [hK.h, hK.w]; omega), hK.val _ _ (by omega) (by omega), hK.val _ _ (by omega) (by omega),
          e3 p' (by omega), e3 q' (by omega), hodd]
      · have z : ∀ a b : ℤ, ¬ ((0 ≤ a ∧ a < 2 * n) ∧ (0 ≤ b ∧ b < 2 * n)) → K.padZ a b = 0 := by
          intro a b hab
          unfold Img.padZ Img.pad
          split
          · rw [if_neg]
            rw [hK.h, hK.w]
            omega
          · rfl
        rw [z p q hc, z _ _ (by omega), neg_zero]
    rw [hv, hv, ← mul_neg, ← Finset.sum_neg_distrib]
    congr 1
    rw [← sum_reflect2 n]
    refine Finset.sum_congr rfl fun a ha => ?_
    rw [← Finset.sum_neg_distrib]
    refine Finset.sum_congr rfl fun b hb => ?_
    rw [Finset.mem_range] at ha hb
    have hs : (κ.scale scale).at' (n - 1 - a) (n - 1 - b) = (κ.scale scale).at' a b := by
      have := hsym a b (by omega) (by omega)
      rw [hh, hw] at this
      change κ.at' _ _ * scale = κ.at' _ _ * scale
      rw [this]
    rw [hs, ← mul_neg, ← hKa]
    congr 2 <;> omega
  obtain ⟨mx, hmx, hxh, hxw, ax⟩ := anti _ _ (isKernel_x ps n) odd_x
  obtain ⟨my, hmy, hyh, hyw, ay⟩ := anti _ _ (isKernel_y ps n) odd_y
  have read : ∀ m : Img, m.h = 2 * n → m.w = 2 * n →
      (∀ i j, i < 2 * n → j < 2 * n → m.at' (2 * n - 1 - i) (2 * n - 1 - j) = -m.at' i j) →
      readMap m x0 y0 (n * ps) x0 y0 = .ok 0 := by
    intro m h1 h2 ha
    have e : ∀ c : ℝ, pixCoord (2 * n) ((c - c) / (n * ps / 2)) = ((n - 1 : ℕ) : ℝ) + 1 / 2 := by
      intro c
      unfold pixCoord
      rw [Nat.cast_sub (by omega)]
      push_cast
      ring
    rw [readMap_mid m (i := n - 1) (j := n - 1) (by omega) (by omega) (by rw [h2]; exact e x0) (by rw [h1]; exact e y0)]
    have a1 := ha (n - 1) (n - 1) (by omega) (by omega)
    have a2 := ha (n - 1) n (by omega) (by omega)
    rw [show 2 * n - 1 - (n - 1) = n by omega] at a1
    rw [show 2 * n - 1 - (n - 1) = n by omega, show 2 * n - 1 - n = n - 1 by omega] at a2
    rw [show n - 1 + 1 = n by omega, a1, a2]
    congr 1
    ring
  simp only [PixLens.deflection, deflectionPixConv, hmx, hmy, bind, Except.bind, read mx hxh hxw ax, read my hyh hyw ay,
    pure, Except.pure]

/-! ### What does not hold -/

/-- The two modes give the same deflection. -/
def C50_modes_statement : Prop :=
  ∀ (fast : ℕ → ℕ), (∀ k, k ≤ fast k) → ∀ (ps : ℝ), 0 < ps → ∀ (n : ℕ) (κ : Img), 1 ≤ n → κ.h = n → κ.w = n →
    ∀ (window : ℝ) (l1 l2 : PixLens), PixLens.new fast ps n n "fft" "zero" window = .ok l1 →
      PixLens.new fast ps n n "conv2d" "zero" window = .ok l2 →
      ∀ x y x0 y0 scale, l1.deflection fast x y x0 y0 κ scale = l2.deflection fast x y x0 y0 κ scale

/-- A point-symmetric map does not deflect at its centre. -/
def C50_centre_statement : Prop :=
  ∀ (fast : ℕ → ℕ), (∀ k, k ≤ fast k) → ∀ (ps : ℝ), 0 < ps → ∀ (n : ℕ) (κ : Img), 1 ≤ n → κ.h = n → κ.w = n →
    PointSymmetric κ → ∀ (window : ℝ) (l : PixLens), PixLens.new fast ps n n "fft" "zero" window = .ok l →
      ∀ x0 y0 scale, l.deflection fast x0 y0 x0 y0 κ scale = .ok (0, 0)

/-- Four equal pixels. -/
def ones2 : Img := ⟨2, 2, fun _ _ => 1⟩

/-- The `fft` map of four equal pixels, first component (`ps = 1`). -/
theorem ones2_fft : ∃ m, convMap id (ones2.scale 1) (.spectrum (rfft2 (buildKernels 1 2).1 (fftSize id 2) (fftSize id 2)))
    1 2 "zero" "fft" = .ok m ∧ m.h = 2 ∧ m.w = 2 ∧ m.at' 0 0 = 0 ∧ m.at' 1 1 = 1 / Real.pi * (32 / 15) ∧
      m.at' 0 1 = 1 / Real.pi * (16 / 5) ∧ m.at' 1 0 = 0 := by
  obtain ⟨m, h1, h2, h3, hv⟩ := fft_map (fast := id) (κ := ones2.scale 1) (isKernel_x 1 2) (by omega) rfl rfl rfl
  refine ⟨m, h1, h2, h3, ?_, ?_, ?_, ?_⟩ <;>
  · rw [hv _ _ (by omega) (by omega)]
    simp only [Finset.sum_range_succ, Finset.sum_range_zero, ones2, Img.scale, pixPos]
    norm_num

theorem C50_fails_centre : ¬ C50_centre_statement := by
  intro H
  obtain ⟨m, h1, h2, h3, v00, v11, v01, v10⟩ := ones2_fft
  have := H id (fun _ => le_rfl) 1 one_pos 2 ones2 (by omega) rfl rfl (fun _ _ _ _ => rfl) 0 _ (new_fft id 1 2 0) 0 0 1
  have e : pixCoord 2 ((0 - 0 : ℝ) / ((2 : ℕ) * 1 / 2)) = ((0 : ℕ) : ℝ) + 1 / 2 := by
    unfold pixCoord; norm_num
  obtain ⟨my, g1, g2, g3, -⟩ := fft_map (fast := id) (κ := ones2.scale 1) (isKernel_y 1 2) (by omega) rfl rfl rfl
  simp only [PixLens.deflection, deflectionPixConv, h1, g1, bind, Except.bind,
    readMap_mid m (i := 0) (j := 0) (by omega) (by omega) (by rw [h3]; exact e) (by rw [h2]; exact e),
    readMap_mid my (i := 0) (j := 0) (by omega) (by omega) (by rw [g3]; exact e) (by rw [g2]; exact e), pure, Except.pure,
    Except.ok.injEq, Prod.mk.injEq, zero_add, v00, v11, v01, v10] at this
  have hpi := Real.pi_pos
  have hp : 0 < 1 / Real.pi := by positivity
  linarith [this.1]

/-- The `conv2d` map of four equal pixels, where it is needed. -/
theorem ones2_conv2d : ∃ m, convMap id (ones2.scale 1) (.direct (buildKernels 1 2).1) 1 2 "zero" "conv2d" = .ok m ∧
    m.h = 4 ∧ m.w = 4 ∧ m.at' 2 2 = 1 / Real.pi * (32 / 15) ∧ m.at' 2 3 = 1 / Real.pi * (14 / 15) ∧
      m.at' 3 2 = 1 / Real.pi * (8 / 15) ∧ m.at' 3 3 = 1 / Real.pi * (1 / 3) := by
  obtain ⟨m, h1, h2, h3, hv⟩ := conv2d_map (fast := id) (κ := ones2.scale 1) "zero" (isKernel_x 1 2) rfl rfl
  have k : ∀ i j : ℕ, (buildKernels 1 2).1.padZ i j = if i < 4 ∧ j < 4 then
      kerPos 1 2 j / (kerPos 1 2 j ^ 2 + kerPos 1 2 i ^ 2) else 0 := by
    intro i j
    rw [padZ_pad, Img.pad]
    split
    · rename_i h
      rw [if_pos (show i < 4 ∧ j < 4 from h)]
      exact (kernels_at 1 2 h.1 h.2).1
    · rename_i h
      rw [if_neg (show ¬ (i < 4 ∧ j < 4) from h)]
  have v : ∀ i j : ℕ, 1 ≤ i → 1 ≤ j → m.at' i j = 1 / Real.pi *
      (((if i + 1 < 4 ∧ j + 1 < 4 then kerPos 1 2 (j + 1) / (kerPos 1 2 (j + 1) ^ 2 + kerPos 1 2 (i + 1) ^ 2) else 0)
        + (if i + 1 < 4 ∧ j < 4 then kerPos 1 2 j / (kerPos 1 2 j ^ 2 + kerPos 1 2 (i + 1) ^ 2) else 0))
      + ((if i < 4 ∧ j + 1 < 4 then kerPos 1 2 (j + 1) / (kerPos 1 2 (j + 1) ^ 2 + kerPos 1 2 i ^ 2) else 0)
        + (if i < 4 ∧ j < 4 then kerPos 1 2 j / (kerPos 1 2 j ^ 2 + kerPos 1 2 i ^ 2) else 0))) := by
    intro i j hi hj
    rw [hv]
    simp only [Finset.sum_range_succ, Finset.sum_range_zero, ones2, Img.scale, zero_add, one_mul, one_pow]
    have e1 : ∀ q : ℕ, (q : ℤ) + (2 / 2 : ℕ) - (0 : ℕ) = ((q + 1 : ℕ) : ℤ) := by intro q; omega
    have e2 : ∀ q : ℕ, (q : ℤ) + (2 / 2 : ℕ) - (1 : ℕ) = (q : ℤ) := by intro q; omega
    rw [e1, e2, e1, e2, k, k, k, k]
  refine ⟨m, h1, h2, h3, ?_, ?_, ?_, ?_⟩ <;>
  · rw [v _ _ (by omega) (by omega)]
    simp [kerPos]
    norm_num

theorem C50_fails_modes : ¬ C50_modes_statement := by
  intro H
  obtain ⟨m, h1, h2, h3, v00, v11, v01, v10⟩ := ones2_fft
  obtain ⟨q, q1, q2, q3, w22, w23, w32, w33⟩ := ones2_conv2d
  obtain ⟨my, g1, g2, g3, -⟩ := fft_map (fast := id) (κ := ones2.scale 1) (isKernel_y 1 2) (by omega) rfl rfl rfl
  obtain ⟨qy, r1, r2, r3, -⟩ := conv2d_map (fast := id) (κ := ones2.scale 1) "zero" (isKernel_y 1 2) rfl rfl
  have := H id (fun _ => le_rfl) 1 one_pos 2 ones2 (by omega) rfl rfl 0 _ _ (new_fft id 1 2 0) (new_conv2d id 1 2 "zero" 0)
    (1 / 2) (1 / 2) 0 0 1
  have e : ((1 / 2 : ℝ) - 0) / ((2 : ℕ) * 1 / 2) = centre 2 1 := by unfold centre; norm_num
  have f : pixCoord 4 (((1 / 2 : ℝ) - 0) / ((2 : ℕ) * 1 / 2)) = ((2 : ℕ) : ℝ) + 1 / 2 := by
    unfold pixCoord; norm_num
  simp only [PixLens.deflection, deflectionPixConv, h1, g1, q1, r1, bind, Except.bind,
    readMap_centre m (i := 1) (j := 1) (by omega) (by omega) (by omega) (by omega) (by rw [h3]; exact e) (by rw [h2]; exact e),
    readMap_centre my (i := 1) (j := 1) (by omega) (by omega) (by omega) (by omega) (by rw [g3]; exact e) (by rw [g2]; exact e),
    readMap_mid q (i := 2) (j := 2) (by omega) (by omega) (by rw [q3]; exact f) (by rw [q2]; exact f),
    readMap_mid qy (i := 2) (j := 2) (by omega) (by omega) (by rw [r3]; exact f) (by rw [r2]; exact f), pure, Except.pure,
    Except.ok.injEq, Prod.mk.injEq, v11, w22, w23, w32, w33] at this
  have hpi := Real.pi_pos
  have hp : 0 < 1 / Real.pi := by positivity
  have h := this.1
  norm_num at h
  have hi : 0 < Real.pi⁻¹ := by positivity
  linarith

example : PointSymmetric ones2 := fun _ _ _ _ => rfl

/-! ### Linearity -/

theorem interp2d_pos {h w : ℕ} {im : Fin h → Fin w → ℝ} {x y a : ℝ} (hok : interp2d im x y "linear" "zeros" = .ok a) :
    1 ≤ h ∧ 1 ≤ w := by
  by_contra hc
  have hnone : ∀ i j : ℤ, imGet im i j = .error .indexError := by
    intro i j
    unfold imGet
    rcases (by omega : h = 0 ∨ w = 0) with rfl | rfl
    · have : pyIdx 0 i = none := by
        unfold pyIdx
        rw [dif_neg (by omega), dif_neg (by omega)]
      rw [this]
    · have : pyIdx 0 j = none := by
        unfold pyIdx
        rw [dif_neg (by omega), dif_neg (by omega)]
      rw [this]
      cases pyIdx h i <;> rfl
  unfold interp2d at hok
  simp [hnone, bind, Except.bind] at hok

theorem lin_comb (n : ℕ) (p s t : ℝ) (f g : ℤ → ℝ) :
    lin n p (fun k => s * f k + t * g k) = s * lin n p f + t * lin n p g := by
  unfold lin; ring

/-- Reading is linear in the map. -/
theorem readMap_comb {m1 m2 : Img} (hh : m2.h = m1.h) (hw : m2.w = m1.w) {x0 y0 fov x y a b : ℝ}
    (h1 : readMap m1 x0 y0 fov x y = .ok a) (h2 : readMap m2 x0 y0 fov x y = .ok b) (s t : ℝ) :
    readMap (Img.comb s t m1 m2) x0 y0 fov x y = .ok (s * a + t * b) := by
  obtain ⟨h', w', f⟩ := m1
  obtain ⟨h, w, g⟩ := m2
  simp only at hh hw
  subst hh hw
  unfold readMap at h1 h2 ⊢
  obtain ⟨ph, pw⟩ := interp2d_pos h1
  simp only at ph pw
  have hcomb : (Img.comb s t ⟨h, w, f⟩ ⟨h, w, g⟩).toFin
      = fun (i : Fin h) (j : Fin w) => s * f i j + t * g i j := rfl
  have hf : (Img.toFin ⟨h, w, f⟩) = fun (i : Fin h) (j : Fin w) => f i j := rfl
  have hg : (Img.toFin ⟨h, w, g⟩) = fun (i : Fin h) (j : Fin w) => g i j := rfl
  rw [hf] at h1
  rw [hg] at h2
  rw [hcomb]
  simp only [Img.comb] at *
  rw [interp2d_linear ph pw _ _ _ "zeros" (Or.inr (Or.inr rfl)), Except.ok.injEq] at h1 h2
  rw [interp2d_linear ph pw _ _ _ "zeros" (Or.inr (Or.inr rfl)), Except.ok.injEq, ← h1, ← h2]
  have hwrap : ∀ i j : ℤ, wrap 0 (wrap (fun _ => 0) (fun (i : Fin h) (j : Fin w) => s * f i j + t * g i j) i) j
      = s * wrap 0 (wrap (fun _ => 0) (fun (i : Fin h) (j : Fin w) => f i j) i) j
        + t * wrap 0 (wrap (fun _ => 0) (fun (i : Fin h) (j : Fin w) => g i j) i) j := by
    intro i j
    unfold wrap
    cases pyIdx h i with
    | none => cases pyIdx w j <;> simp
    | some i' => cases pyIdx w j <;> simp
  simp only [hwrap]
  split
  · simp
  · simp only [lin_comb]

theorem padMap_comb {κ₁ κ₂ y₁ y₂ : Img} (hh : κ₂.h = κ₁.h) (hw : κ₂.w = κ₁.w) {n : ℕ} {padding : String}
    (h1 : padMap κ₁ n padding = .ok y₁) (h2 : padMap κ₂ n padding = .ok y₂) (s t : ℝ) :
    padMap (Img.comb s t κ₁ κ₂) n padding = .ok (Img.comb s t y₁ y₂) ∧ y₂.h = y₁.h ∧ y₂.w = y₁.w := by
  unfold padMap at *
  split
  · rename_i hp
    simp only [hp, if_true, Except.ok.injEq] at h1 h2
    subst h1 h2
    exact ⟨rfl, hh, hw⟩
  · rename_i hp
    simp only [hp, if_false] at h1 h2
    split
    · rename_i hp2
      simp only [hp2, if_true] at h1 h2
      split
      · rename_i hn
        simp only [hn, if_true] at h1
        cases h1
      · rename_i hn
        simp only [hn, if_false, Except.ok.injEq] at h1 h2
        subst h1 h2
        refine ⟨rfl, ?_, ?_⟩
        · simp only [hh]
        · simp only [hw]
    · rename_i hp2
      simp only [hp2, if_false] at h1 h2
      split
      · rename_i hp3
        simp only [hp3, if_true, Except.ok.injEq] at h1 h2
        subst h1 h2
        refine ⟨?_, ?_, ?_⟩
        · simp only [Img.comb, hh, hw]
        · simp only [hh]
        · simp only [hw]
      · rename_i hp3
        simp only [hp3, if_false] at h1
        cases h1

theorem unpad_comb (fast : ℕ → ℕ) {A B : Img} {a b : ℕ} (hA : A.h = a) (hB : B.h = a) (wA : A.w = b) (wB : B.w = b)
    (s t c : ℝ) (n : ℕ) :
    unpadFft fast ((Img.comb s t A B).scale c) n = Img.comb s t (unpadFft fast (A.scale c) n) (unpadFft fast (B.scale c) n) ∧
      (unpadFft fast (B.scale c) n).h = (unpadFft fast (A.scale c) n).h ∧
      (unpadFft fast (B.scale c) n).w = (unpadFft fast (A.scale c) n).w := by
  obtain ⟨h1, w1, f⟩ := A
  obtain ⟨h2, w2, g⟩ := B
  simp only at hA hB wA wB
  subst hA hB wA wB
  refine ⟨Img.ext rfl rfl ?_, rfl, rfl⟩
  funext i j
  simp only [unpadFft, Img.slice, Img.roll, Img.scale, Img.comb]
  ring

/-- The maps are linear in the convergence. -/
theorem convMap_comb {fast : ℕ → ℕ} {κ₁ κ₂ m₁ m₂ : Img} {k : KernelTilde} {ps : ℝ} {n : ℕ} {padding mode : String}
    (hh : κ₂.h = κ₁.h) (hw : κ₂.w = κ₁.w) (h1 : convMap fast κ₁ k ps n padding mode = .ok m₁)
    (h2 : convMap fast κ₂ k ps n padding mode = .ok m₂) (s t : ℝ) :
    convMap fast (Img.comb s t κ₁ κ₂) k ps n padding mode = .ok (Img.comb s t m₁ m₂) ∧ m₂.h = m₁.h ∧ m₂.w = m₁.w := by
  by_cases hf : mode = "fft"
  · subst hf
    cases k with
    | direct K =>
      cases hp : fft2Padded fast κ₁ n padding <;> simp [convMap, hp] at h1
    | spectrum G =>
      cases hp1 : padMap κ₁ n padding with
      | error e => simp [convMap, fft2Padded, hp1] at h1
      | ok y₁ =>
        cases hp2 : padMap κ₂ n padding with
        | error e => simp [convMap, fft2Padded, hp2] at h2
        | ok y₂ =>
          obtain ⟨hp3, eh, ew⟩ := padMap_comb hh hw hp1 hp2 s t
          rw [convMap_fft fast G ps n hp1, Except.ok.injEq] at h1
          rw [convMap_fft fast G ps n hp2, Except.ok.injEq] at h2
          rw [convMap_fft fast G ps n hp3, Except.ok.injEq]
          have hX : (fun u v => rfft2 (Img.comb s t y₁ y₂) (fftSize fast n) (fftSize fast n) u v * G u v)
              = fun u v => (s : ℂ) * (rfft2 y₁ (fftSize fast n) (fftSize fast n) u v * G u v)
                + t * (rfft2 y₂ (fftSize fast n) (fftSize fast n) u v * G u v) := by
            funext u v
            rw [rfft2_comb eh ew]; ring
          have key : irfft2 (fun u v => rfft2 (Img.comb s t y₁ y₂) (fftSize fast n) (fftSize fast n) u v * G u v)
              (fftSize fast n) (fftSize fast n)
              = Img.comb s t (irfft2 (fun u v => rfft2 y₁ (fftSize fast n) (fftSize fast n) u v * G u v)
                  (fftSize fast n) (fftSize fast n))
                (irfft2 (fun u v => rfft2 y₂ (fftSize fast n) (fftSize fast n) u v * G u v)
                  (fftSize fast n) (fftSize fast n)) := by
            rw [hX]
            refine Img.ext (irfft2_h _ _ _) (irfft2_w _ _ _) ?_
            funext a b
            exact irfft2_comb _ _ s t _ _ a b
          rw [key, ← h1, ← h2]
          exact unpad_comb fast (irfft2_h _ _ _) (irfft2_h _ _ _) (irfft2_w _ _ _) (irfft2_w _ _ _) s t _ n
  · by_cases hc : mode = "conv2d"
    · subst hc
      cases k with
      | spectrum G => simp [convMap] at h1
      | direct K =>
        rw [convMap_conv2d, Except.ok.injEq] at h1 h2
        rw [convMap_conv2d, Except.ok.injEq]
        subst h1 h2
        refine ⟨?_, rfl, rfl⟩
        refine Img.ext rfl rfl ?_
        funext a b
        simp only [Img.scale, Img.comb, conv2dSame, Img.flip, hh, hw]
        rw [Finset.sum_mul, Finset.sum_mul, Finset.sum_mul, Finset.mul_sum, Finset.mul_sum, ← Finset.sum_add_distrib]
        refine Finset.sum_congr rfl fun i _ => ?_
        rw [Finset.sum_mul, Finset.sum_mul, Finset.sum_mul, Finset.mul_sum, Finset.mul_sum, ← Finset.sum_add_distrib]
        refine Finset.sum_congr rfl fun j _ => ?_
        ring
    · simp [convMap, hf, hc] at h1

theorem comb_scale (s t c : ℝ) (κ₁ κ₂ : Img) :
    (Img.comb s t κ₁ κ₂).scale c = Img.comb s t (κ₁.scale c) (κ₂.scale c) := by
  refine Img.ext rfl rfl ?_
  funext i j
  simp only [Img.comb, Img.scale]
  ring

theorem scale_scale (κ : Img) (s t c d : ℝ) :
    κ.scale (s * c + t * d) = Img.comb s t (κ.scale c) (κ.scale d) := by
  refine Img.ext rfl rfl ?_
  funext i j
  simp only [Img.comb, Img.scale]
  ring

theorem deflection_comb {fast : ℕ → ℕ} {l : PixLens} {κ₁ κ₂ κ : Img} {c₁ c₂ c s t : ℝ} (hh : κ₂.h = κ₁.h) (hw : κ₂.w = κ₁.w)
    (hκ : κ.scale c = Img.comb s t (κ₁.scale c₁) (κ₂.scale c₂)) {x y x0 y0 : ℝ} {p q : ℝ × ℝ}
    (h1 : l.deflection fast x y x0 y0 κ₁ c₁ = .ok p) (h2 : l.deflection fast x y x0 y0 κ₂ c₂ = .ok q) :
    l.deflection fast x y x0 y0 κ c = .ok (s * p.1 + t * q.1, s * p.2 + t * q.2) := by
  unfold PixLens.deflection at *
  cases ha : l.axTilde with
  | none => simp [ha] at h1
  | some ax =>
    cases hb : l.ayTilde with
    | none => simp [ha, hb] at h1
    | some ay =>
      cases hm : l.mode with
      | none => simp [ha, hb, hm] at h1
      | some mode =>
        simp only [ha, hb, hm] at h1 h2 ⊢
        unfold deflectionPixConv at *
        simp only [bind, Except.bind] at *
        cases a1 : convMap fast (κ₁.scale c₁) ax l.ps l.n l.padding mode with
        | error e => simp [a1] at h1
        | ok mx1 =>
        cases a2 : convMap fast (κ₂.scale c₂) ax l.ps l.n l.padding mode with
        | error e => simp [a2] at h2
        | ok mx2 =>
        cases b1 : convMap fast (κ₁.scale c₁) ay l.ps l.n l.padding mode with
        | error e => simp [a1, b1] at h1
        | ok my1 =>
        cases b2 : convMap fast (κ₂.scale c₂) ay l.ps l.n l.padding mode with
        | error e => simp [a2, b2] at h2
        | ok my2 =>
        simp only [a1, b1] at h1
        simp only [a2, b2] at h2
        obtain ⟨a3, ah, aw⟩ := convMap_comb (κ₁ := κ₁.scale c₁) (κ₂ := κ₂.scale c₂) hh hw a1 a2 s t
        obtain ⟨b3, bh, bw⟩ := convMap_comb (κ₁ := κ₁.scale c₁) (κ₂ := κ₂.scale c₂) hh hw b1 b2 s t
        rw [hκ, a3, b3]
        cases r1 : readMap mx1 x0 y0 (l.n * l.ps) x y with
        | error e => simp [r1] at h1
        | ok u1 =>
        cases r2 : readMap mx2 x0 y0 (l.n * l.ps) x y with
        | error e => simp [r2] at h2
        | ok u2 =>
        cases r3 : readMap my1 x0 y0 (l.n * l.ps) x y with
        | error e => simp [r1, r3] at h1
        | ok v1 =>
        cases r4 : readMap my2 x0 y0 (l.n * l.ps) x y with
        | error e => simp [r2, r4] at h2
        | ok v2 =>
        simp only [r1, r3, pure, Except.pure, Except.ok.injEq] at h1
        simp only [r2, r4, pure, Except.pure, Except.ok.injEq] at h2
        subst h1 h2
        simp only [readMap_comb ah aw r1 r2 s t, readMap_comb bh bw r3 r4 s t, pure, Except.pure]

theorem potential_comb {fast : ℕ → ℕ} {l : PixLens} {κ₁ κ₂ κ : Img} {c₁ c₂ c s t : ℝ} (hh : κ₂.h = κ₁.h) (hw : κ₂.w = κ₁.w)
    (hκ : κ.scale c = Img.comb s t (κ₁.scale c₁) (κ₂.scale c₂)) {x y x0 y0 : ℝ} {p q : ℝ}
    (h1 : l.potential fast x y x0 y0 κ₁ c₁ = .ok p) (h2 : l.potential fast x y x0 y0 κ₂ c₂ = .ok q) :
    l.potential fast x y x0 y0 κ c = .ok (s * p + t * q) := by
  unfold PixLens.potential at *
  cases ha : l.potTilde with
  | none => simp [ha] at h1
  | some pk =>
    cases hm : l.mode with
    | none => simp [ha, hm] at h1
    | some mode =>
      simp only [ha, hm] at h1 h2 ⊢
      unfold potentialPixConv at *
      simp only [bind, Except.bind] at *
      cases a1 : convMap fast (κ₁.scale c₁) pk l.ps l.n l.padding mode with
      | error e => simp [a1] at h1
      | ok m1 =>
      cases a2 : convMap fast (κ₂.scale c₂) pk l.ps l.n l.padding mode with
      | error e => simp [a2] at h2
      | ok m2 =>
      simp only [a1] at h1
      simp only [a2] at h2
      obtain ⟨a3, ah, aw⟩ := convMap_comb (κ₁ := κ₁.scale c₁) (κ₂ := κ₂.scale c₂) hh hw a1 a2 s t
      rw [hκ, a3]
      exact readMap_comb ah aw h1 h2 s t

/-- C50: deflection and potential are linear in the convergence map, in every mode and with every
padding, for every size. -/
theorem C50_linear_map (fast : ℕ → ℕ) (l : PixLens) {κ₁ κ₂ : Img} (hh : κ₂.h = κ₁.h) (hw : κ₂.w = κ₁.w)
    (s t scale x y x0 y0 : ℝ) :
    (∀ p q, l.deflection fast x y x0 y0 κ₁ scale = .ok p → l.deflection fast x y x0 y0 κ₂ scale = .ok q →
      l.deflection fast x y x0 y0 (Img.comb s t κ₁ κ₂) scale = .ok (s * p.1 + t * q.1, s * p.2 + t * q.2)) ∧
    (∀ p q, l.potential fast x y x0 y0 κ₁ scale = .ok p → l.potential fast x y x0 y0 κ₂ scale = .ok q →
      l.potential fast x y x0 y0 (Img.comb s t κ₁ κ₂) scale = .ok (s * p + t * q)) :=
  ⟨fun _ _ h1 h2 => deflection_comb hh hw (comb_scale s t scale κ₁ κ₂) h1 h2,
    fun _ _ h1 h2 => potential_comb hh hw (comb_scale s t scale κ₁ κ₂) h1 h2⟩

/-- C50: and in the scale. -/
theorem C50_linear_scale (fast : ℕ → ℕ) (l : PixLens) (κ : Img) (s t c d x y x0 y0 : ℝ) :
    (∀ p q, l.deflection fast x y x0 y0 κ c = .ok p → l.deflection fast x y x0 y0 κ d = .ok q →
      l.deflection fast x y x0 y0 κ (s * c + t * d) = .ok (s * p.1 + t * q.1, s * p.2 + t * q.2)) ∧
    (∀ p q, l.potential fast x y x0 y0 κ c = .ok p → l.potential fast x y x0 y0 κ d = .ok q →
      l.potential fast x y x0 y0 κ (s * c + t * d) = .ok (s * p + t * q)) :=
  ⟨fun _ _ h1 h2 => deflection_comb rfl rfl (scale_scale κ s t c d) h1 h2,
    fun _ _ h1 h2 => potential_comb rfl rfl (scale_scale κ s t c d) h1 h2⟩

/-- C50: `convergence` returns the scaled map at the pixel centres. -/
theorem C50_convergence (l : PixLens) {κ : Img} (hps : l.ps ≠ 0) (hh : 2 ≤ κ.h) (hw : 2 ≤ κ.w) (x0 y0 scale : ℝ)
    {i j : ℕ} (hi : i < κ.h) (hj : j < κ.w) :
    l.convergence (x0 + pixPos l.ps κ.w j) (y0 + pixPos l.ps κ.h i) x0 y0 κ scale = .ok (κ.at' i j * scale) := by
  unfold PixLens.convergence
  have e : ∀ (c : ℝ) (n k : ℕ), n ≠ 0 → (c + pixPos l.ps n k - c) / (n * l.ps) * 2 = centre n k := by
    intro c n k hn
    rw [← pixPos_centre hps hn, add_sub_cancel_left]
    have : (n : ℝ) ≠ 0 := Nat.cast_ne_zero.2 hn
    field_simp
  simp only [e x0 κ.w j (by omega), e y0 κ.h i (by omega)]
  exact C09_centre (h := κ.h) (w := κ.w) hh hw (κ.scale scale).toFin ⟨i, hi⟩ ⟨j, hj⟩ "linear" "zeros" (Or.inr rfl)
    (Or.inr (Or.inr rfl))

/-- C50: an unknown padding is rejected in `fft` mode, when the map is evaluated; `conv2d` ignores it. -/
theorem C50_padding_errors {fast : ℕ → ℕ} {ps : ℝ} {n : ℕ} {padding : String} (h1 : padding ≠ "zero")
    (h2 : padding ≠ "reflect") (h3 : padding ≠ "circular") (h4 : padding ≠ "tile") (window x y x0 y0 scale : ℝ) (κ : Img) :
    (∃ l, PixLens.new fast ps n n "fft" padding window = .ok l ∧
      l.deflection fast x y x0 y0 κ scale = .error .valueError ∧
      l.potential fast x y x0 y0 κ scale = .error .valueError) ∧
    ∃ l l', PixLens.new fast ps n n "conv2d" padding window = .ok l ∧
      PixLens.new fast ps n n "conv2d" "zero" window = .ok l' ∧
      l.deflection fast x y x0 y0 κ scale = l'.deflection fast x y x0 y0 κ scale ∧
      l.potential fast x y x0 y0 κ scale = l'.potential fast x y x0 y0 κ scale := by
  have hp : ∀ κ', padMap κ' n padding = .error .valueError := by
    intro κ'
    simp [padMap, h1, h2, h3, h4]
  have hc : ∀ k, convMap fast (κ.scale scale) k ps n padding "fft" = .error .valueError := by
    intro k
    simp [convMap, fft2Padded, hp]
  constructor
  · obtain ⟨ax, ay, hl⟩ := new_fft_any fast ps n padding window
    refine ⟨_, hl, ?_, ?_⟩
    · simp only [PixLens.deflection, deflectionPixConv, hc, bind, Except.bind]
    · simp only [PixLens.potential, potentialPixConv, hc, bind, Except.bind]
  · refine ⟨_, _, new_conv2d fast ps n padding window, new_conv2d fast ps n "zero" window, ?_, ?_⟩
    · simp only [PixLens.deflection, deflectionPixConv, convMap_conv2d]
    · simp only [PixLens.potential, potentialPixConv, convMap_conv2d]

/-! ### C56: switching the mode -/

/-- The kernels the lens uses are those of its mode: spectra for `fft`, the tables for `conv2d`. -/
def KernelsOfMode (fast : ℕ → ℕ) (l : PixLens) : Prop :=
  (l.mode = some "fft" ∧
    l.axTilde = some (.spectrum (rfft2 l.ax (fast (2 * l.n)) (fast (2 * l.n)))) ∧
    l.ayTilde = some (.spectrum (rfft2 l.ay (fast (2 * l.n)) (fast (2 * l.n)))) ∧
    l.potTilde = some (.spectrum (rfft2 l.pot (fast (2 * l.n)) (fast (2 * l.n))))) ∨
  (l.mode = some "conv2d" ∧ l.axTilde = some (.direct l.ax) ∧ l.ayTilde = some (.direct l.ay) ∧
    l.potTilde = some (.direct l.pot))

/-- Assignments to `convolution_mode`, exceptions caught. -/
noncomputable def PixLens.assignAll (fast : ℕ → ℕ) : PixLens → List String → PixLens
  | l, [] => l
  | l, m :: ms => ((l.setMode fast m).1).assignAll fast ms

/-- The last accepted name. -/
def lastMode (m0 : String) (ms : List String) : String :=
  ms.foldl (fun cur m => if m = "fft" ∨ m = "conv2d" then m else cur) m0

theorem setMode_fft (fast : ℕ → ℕ) (l : PixLens) : l.setMode fast "fft" = (⟨l.n, l.ps, l.padding, l.ax, l.ay, l.pot,
    some (.spectrum (rfft2 l.ax (fftSize fast l.n) (fftSize fast l.n))),
    some (.spectrum (rfft2 l.ay (fftSize fast l.n) (fftSize fast l.n))),
    some (.spectrum (rfft2 l.pot (fftSize fast l.n) (fftSize fast l.n))), some "fft"⟩, none) := by
  simp [PixLens.setMode]

theorem setMode_conv2d (fast : ℕ → ℕ) (l : PixLens) : l.setMode fast "conv2d" = (⟨l.n, l.ps, l.padding, l.ax, l.ay, l.pot,
    some (.direct l.ax), some (.direct l.ay), some (.direct l.pot), some "conv2d"⟩, none) := by
  simp [PixLens.setMode]

/-- C56: one assignment.  Unknown names raise and change nothing; the other two are accepted, do not
touch the tables and install the kernels of the new mode. -/
theorem C56_assign (fast : ℕ → ℕ) (l : PixLens) (mode : String) :
    ((mode ≠ "fft" ∧ mode ≠ "conv2d") → l.setMode fast mode = (l, some .valueError)) ∧
    ((mode = "fft" ∨ mode = "conv2d") → ∃ l', l.setMode fast mode = (l', none) ∧ l'.mode = some mode ∧
      KernelsOfMode fast l' ∧ l'.ax = l.ax ∧ l'.ay = l.ay ∧ l'.pot = l.pot ∧ l'.n = l.n ∧ l'.ps = l.ps ∧
      l'.padding = l.padding) := by
  constructor
  · rintro ⟨h1, h2⟩
    simp [PixLens.setMode, h1, h2]
  · rintro (rfl | rfl)
    · exact ⟨_, setMode_fft fast l, rfl, Or.inl ⟨rfl, rfl, rfl, rfl⟩, rfl, rfl, rfl, rfl, rfl, rfl⟩
    · exact ⟨_, setMode_conv2d fast l, rfl, Or.inr ⟨rfl, rfl, rfl, rfl⟩, rfl, rfl, rfl,
        rfl, rfl, rfl⟩

/-- C56: after the constructor and any sequence of assignments, accepted or not, the mode is the last
accepted one, the kernels in use are those of that mode, and the tables are those of the constructor. -/
theorem C56_history {fast : ℕ → ℕ} {ps window : ℝ} {rows cols : ℕ} {mode padding : String} {l : PixLens}
    (hnew : PixLens.new fast ps rows cols mode padding window = .ok l) (ms : List String) :
    (l.assignAll fast ms).mode = some (lastMode mode ms) ∧ KernelsOfMode fast (l.assignAll fast ms) ∧
      (l.assignAll fast ms).ax = l.ax ∧ (l.assignAll fast ms).ay = l.ay ∧ (l.assignAll fast ms).pot = l.pot ∧
      (l.assignAll fast ms).n = rows ∧ (l.assignAll fast ms).ps = ps ∧ (l.assignAll fast ms).padding = padding := by
  have base : l.mode = some mode ∧ KernelsOfMode fast l ∧ l.n = rows ∧ l.ps = ps ∧ l.padding = padding := by
    unfold PixLens.new at hnew
    split at hnew
    · cases hnew
    · simp only at hnew
      by_cases hm : mode = "fft" ∨ mode = "conv2d"
      · obtain ⟨l', h1, h2, h3, -, -, -, h4, h5, h6⟩ := (C56_assign fast ⟨rows, ps, padding,
          (if padding ≠ "zero" ∧ mode = "fft" ∧ window > 0 then (buildKernels ps rows).1.mul (buildWindow window (2 * rows))
            else (buildKernels ps rows).1),
          (if padding ≠ "zero" ∧ mode = "fft" ∧ window > 0 then (buildKernels ps rows).2.1.mul (buildWindow window (2 * rows))
            else (buildKernels ps rows).2.1), (buildKernels ps rows).2.2, none, none, none, none⟩ mode).2 hm
        rw [h1] at hnew
        simp only [Except.ok.injEq] at hnew
        subst hnew
        exact ⟨h2, h3, h4, h5, h6⟩
      · rw [not_or] at hm
        rw [(C56_assign fast _ mode).1 hm] at hnew
        cases hnew
  have gen : ∀ (ms : List String) (l0 : PixLens) (m0 : String), l0.mode = some m0 → KernelsOfMode fast l0 →
      (l0.assignAll fast ms).mode = some (lastMode m0 ms) ∧ KernelsOfMode fast (l0.assignAll fast ms) ∧
        (l0.assignAll fast ms).ax = l0.ax ∧ (l0.assignAll fast ms).ay = l0.ay ∧ (l0.assignAll fast ms).pot = l0.pot ∧
        (l0.assignAll fast ms).n = l0.n ∧ (l0.assignAll fast ms).ps = l0.ps ∧
        (l0.assignAll fast ms).padding = l0.padding := by
    intro ms
    induction ms with
    | nil => intro l0 m0 h1 h2; exact ⟨h1, h2, rfl, rfl, rfl, rfl, rfl, rfl⟩
    | cons m ms ih =>
      intro l0 m0 h1 h2
      rw [PixLens.assignAll]
      by_cases hm : m = "fft" ∨ m = "conv2d"
      · obtain ⟨l', a1, a2, a3, a4, a5, a6, a7, a8, a9⟩ := (C56_assign fast l0 m).2 hm
        rw [a1]
        obtain ⟨b1, b2, b3, b4, b5, b6, b7, b8⟩ := ih l' m a2 a3
        refine ⟨?_, b2, b3.trans a4, b4.trans a5, b5.trans a6, b6.trans a7, b7.trans a8, b8.trans a9⟩
        rw [b1, lastMode, lastMode, List.foldl_cons, if_pos hm]
      · rw [(C56_assign fast l0 m).1 (not_or.1 hm)]
        have := ih l0 m0 h1 h2
        rwa [lastMode, List.foldl_cons, if_neg hm]
  obtain ⟨h1, h2, h3, h4, h5⟩ := base
  obtain ⟨a1, a2, a3, a4, a5, a6, a7, a8⟩ := gen ms l mode h1 h2
  exact ⟨a1, a2, a3, a4, a5, a6.trans h3, a7.trans h4, a8.trans h5⟩

/-- C56: only the last accepted assignment matters. -/
theorem C56_last (fast : ℕ → ℕ) (l : PixLens) {m m' : String} (hm' : m' = "fft" ∨ m' = "conv2d") :
    ((l.setMode fast m).1.setMode fast m').1 = (l.setMode fast m').1 := by
  by_cases h1 : m = "fft" <;> by_cases h2 : m = "conv2d" <;> rcases hm' with rfl | rfl <;>
    simp [PixLens.setMode, h1, h2]

/-- The constructor takes exactly the square maps and the two modes; the padding is not looked at. -/
theorem C56_constructed (fast : ℕ → ℕ) (ps : ℝ) (rows cols : ℕ) (mode padding : String) (window : ℝ) :
    (rows ≠ cols → PixLens.new fast ps rows cols mode padding window = .error .assertionError) ∧
    (rows = cols → mode ≠ "fft" → mode ≠ "conv2d" →
      PixLens.new fast ps rows cols mode padding window = .error .valueError) ∧
    (rows = cols → mode = "fft" ∨ mode = "conv2d" → ∃ l, PixLens.new fast ps rows cols mode padding window = .ok l) := by
  refine ⟨fun h => by simp [PixLens.new, h], fun h h1 h2 => ?_, fun h hm => ?_⟩
  · subst h
    simp [PixLens.new, PixLens.setMode, h1, h2]
  · subst h
    rcases hm with rfl | rfl
    · simp [PixLens.new, PixLens.setMode]
    · simp [PixLens.new, PixLens.setMode]

example : PixLens.new id 1 2 3 "fft" "zero" 0 = .error .assertionError ∧
    PixLens.new id 1 3 3 "FFT" "zero" 0 = .error .valueError ∧ ∃ l, PixLens.new id 1 3 3 "fft" "nonsense" 0 = .ok l :=
  ⟨(C56_constructed ..).1 (by decide), (C56_constructed ..).2.1 rfl (by decide) (by decide),
    (C56_constructed ..).2.2 rfl (.inl rfl)⟩

example : lastMode "fft" ["conv2d", "FFT", "fft", "direct"] = "fft" := by decide

end Caustics

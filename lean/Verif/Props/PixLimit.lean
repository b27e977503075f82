import Verif.Spec.PixLimit
import Verif.Props.PixConv
import Verif.Props.Tabulated

/-! C120: `PixelatedConvergence` on finer and finer maps of the same convergence. -/

namespace Caustics

open MeasureTheory Set Filter Topology

/-! ### Reading a map near a position -/

/-- If all pixels around a position are close to a value, so is what is read there. -/
theorem read_near {m : Img} {w : ℕ} (h1 : m.h = w) (h2 : m.w = w) (hw : 2 ≤ w) {fov σ : ℝ} (hσ : 0 < σ) (hf : σ * w = fov)
    {x y x0 y0 V ε : ℝ} (hx : |x - x0| ≤ fov / 2) (hy : |y - y0| ≤ fov / 2)
    (H : ∀ i j, i < w → j < w → |x - pixelAt x0 σ w j| ≤ 3 / 2 * σ → |y - pixelAt y0 σ w i| ≤ 3 / 2 * σ →
      |m.at' i j - V| ≤ ε) : ∃ r, readMap m x0 y0 fov x y = .ok r ∧ |r - V| ≤ 4 * ε := by
  subst h1
  have hh : 2 ≤ m.h := hw
  have hw' : 2 ≤ m.w := by omega
  obtain ⟨i, j, hi, hj, s, t, e, ex, ey, s0, s1, t0, t1, -, -⟩ := interp2d_rect hh hw' m.toFin x0 y0 x y hσ
    (by rw [h2, hf]; exact hx) (by rw [hf]; exact hy)
  have ex' : ∀ d : ℝ, d / (fov / 2) = d / (σ * (m.w : ℝ)) * 2 := fun d => by rw [h2, hf]; field_simp
  have ey' : ∀ d : ℝ, d / (fov / 2) = d / (σ * (m.h : ℝ)) * 2 := fun d => by rw [hf]; field_simp
  refine ⟨_, by rw [readMap, ex', ey']; exact e, ?_⟩
  rw [h2] at ex
  have near : ∀ {n : ℕ} {c d s : ℝ} {k : ℕ}, d = pixelAt c σ n k + s * σ → -(1 / 2) ≤ s → s ≤ 3 / 2 →
      |d - pixelAt c σ n k| ≤ 3 / 2 * σ ∧ |d - pixelAt c σ n (k + 1)| ≤ 3 / 2 * σ := by
    intro n c d s k e a b
    have e2 : pixelAt c σ n (k + 1) = pixelAt c σ n k + σ := by unfold pixelAt; push_cast; ring
    rw [e2, e]
    constructor <;> rw [abs_le] <;> constructor <;> nlinarith
  obtain ⟨nx0, nx1⟩ := near ex s0 s1
  obtain ⟨ny0, ny1⟩ := near ey t0 t1
  have b1 := H i j (by omega) (by omega) nx0 ny0
  have b2 := H i (j + 1) (by omega) (by omega) nx1 ny0
  have b3 := H (i + 1) j (by omega) (by omega) nx0 ny1
  have b4 := H (i + 1) (j + 1) (by omega) (by omega) nx1 ny1
  have hε : 0 ≤ ε := (abs_nonneg _).trans b1
  have w1 : |1 - s| + |s| ≤ 2 := by
    rcases le_total 0 s with h | h <;> rcases le_total 0 (1 - s) with h' | h' <;>
      simp only [abs_of_nonneg, abs_of_nonpos, h, h'] <;> linarith
  have w2 : |1 - t| + |t| ≤ 2 := by
    rcases le_total 0 t with h | h <;> rcases le_total 0 (1 - t) with h' | h' <;>
      simp only [abs_of_nonneg, abs_of_nonpos, h, h'] <;> linarith
  have lin : ∀ {a b s : ℝ}, ∀ η, |a| ≤ η → |b| ≤ η → |1 - s| + |s| ≤ 2 → |(1 - s) * a + s * b| ≤ 2 * η := by
    intro a b s η ha hb hs
    have hη : 0 ≤ η := (abs_nonneg _).trans ha
    calc |(1 - s) * a + s * b| ≤ |(1 - s) * a| + |s * b| := abs_add_le _ _
      _ = |1 - s| * |a| + |s| * |b| := by rw [abs_mul, abs_mul]
      _ ≤ |1 - s| * η + |s| * η := add_le_add (mul_le_mul_of_nonneg_left ha (abs_nonneg _)) (mul_le_mul_of_nonneg_left hb (abs_nonneg _))
      _ ≤ 2 * η := by nlinarith
  have e3 : ∀ A B C D : ℝ, bilinear A B C D s t - V
      = (1 - t) * ((1 - s) * (A - V) + s * (B - V)) + t * ((1 - s) * (C - V) + s * (D - V)) := by
    intro A B C D; unfold bilinear; ring
  rw [e3]
  have := lin _ (lin ε b1 b2 w1) (lin ε b3 b4 w1) w2
  simp only [Img.toFin]
  linarith

/-! ### Sums at positions on grid lines near a given position -/

theorem nodes_limit {L : ℝ} (hL : 0 < L) {f : ℝ × ℝ → ℝ} (hf : Continuous f) {φ : ℝ → ℝ → ℝ} (hφ : MildKernel φ)
    {δ : ℕ → ℝ} (hδ : Tendsto δ atTop (𝓝 0)) (x y : ℝ) {ε : ℝ} (hε : 0 < ε) :
    ∀ᶠ n : ℕ in atTop, ∀ p q : ℝ, (∃ m : ℤ, p = -(L / 2) + m * (L / n)) → (∃ m : ℤ, q = -(L / 2) + m * (L / n)) →
      |p - x| ≤ δ n → |q - y| ≤ δ n →
      |(L / n) ^ 2 / Real.pi * (∑ a ∈ Finset.range n, ∑ b ∈ Finset.range n,
          f (rowPos L (L / n) b, rowPos L (L / n) a) * φ (p - rowPos L (L / n) b) (q - rowPos L (L / n) a))
        - 1 / Real.pi * ∫ z in square L, f z * φ (x - z.1) (y - z.2)| < ε := by
  set S : Set (ℕ × ℝ × ℝ) := {t | (∃ m : ℤ, t.2.1 = -(L / 2) + m * (L / t.1)) ∧ (∃ m : ℤ, t.2.2 = -(L / 2) + m * (L / t.1)) ∧
    |t.2.1 - x| ≤ δ t.1 ∧ |t.2.2 - y| ≤ δ t.1} with hS
  set F : Filter (ℕ × ℝ × ℝ) := comap (fun t => t.1) atTop ⊓ 𝓟 S with hF
  have h1 : Tendsto (fun t : ℕ × ℝ × ℝ => t.1) F atTop := tendsto_comap.mono_left inf_le_left
  have hmem : ∀ᶠ t in F, t ∈ S := mem_inf_of_right (mem_principal_self S)
  have hpos : ∀ᶠ t : ℕ × ℝ × ℝ in F, 0 < t.1 := h1.eventually (eventually_gt_atTop 0)
  have hn0 : Tendsto (fun t : ℕ × ℝ × ℝ => L / (t.1 : ℝ)) F (𝓝 0) :=
    (tendsto_const_div_atTop_nhds_zero_nat L).comp h1
  have close : ∀ (g : ℕ × ℝ × ℝ → ℝ) (c : ℝ), (∀ t ∈ S, |g t - c| ≤ δ t.1) → Tendsto g F (𝓝 c) := by
    intro g c hg
    rw [tendsto_iff_norm_sub_tendsto_zero]
    refine squeeze_zero' (Eventually.of_forall fun _ => norm_nonneg _) (hmem.mono fun t ht => hg t ht) (hδ.comp h1)
  have lim := tendsto_kernel_sum (F := F) (h := fun t => L / t.1) (n := fun t => t.1) (p := fun t => t.2.1) (q := fun t => t.2.2)
    (x := x) (y := y) hL (hpos.mono fun t ht => div_pos hL (by exact_mod_cast ht))
    (hpos.mono fun t ht => by
      have : (t.1 : ℝ) ≠ 0 := by exact_mod_cast ht.ne'
      field_simp)
    hn0 (close _ _ fun t ht => ht.2.2.1) (close _ _ fun t ht => ht.2.2.2) (hmem.mono fun t ht => ht.1)
    (hmem.mono fun t ht => ht.2.1) hf hφ
  have lim2 := (lim.const_mul (1 / Real.pi)).eventually (Metric.ball_mem_nhds _ hε)
  rw [hF, eventually_inf_principal, eventually_comap] at lim2
  filter_upwards [lim2] with n hn p q hp hq hpx hqy
  have := hn (n, p, q) rfl ⟨hp, hq, hpx, hqy⟩
  simp only [Real.dist_eq] at this
  rw [show (L / n : ℝ) ^ 2 / Real.pi = 1 / Real.pi * (L / n) ^ 2 by ring, mul_assoc]
  exact this

/-! ### The two maps -/

theorem rowPos_pixPos {L : ℝ} {n : ℕ} (hn : 1 ≤ n) (k : ℕ) : pixPos (L / n) n k = rowPos L (L / n) k := by
  have : (n : ℝ) ≠ 0 := Nat.cast_ne_zero.2 (by omega)
  unfold pixPos rowPos
  field_simp
  ring

/-- Where the field of the `fft` map at pixel `k` is computed. -/
noncomputable def fftNode (L : ℝ) (n s k : ℕ) : ℝ := -(L / 2) + (((k : ℤ) + ((s + 1) / 2 : ℕ) - n + 1 : ℤ) : ℝ) * (L / n)

/-- Where the field of the `conv2d` map at pixel `k` is computed. -/
noncomputable def conv2dNode (L : ℝ) (n k : ℕ) : ℝ := -(L / 2) + (((k : ℤ) + (n / 2 : ℕ) - n + 1 : ℤ) : ℝ) * (L / n)

/-- What a map contains: the sum over the pixels, at the nodes inside the field of view. -/
def SumsAt (L : ℝ) (n : ℕ) (f : ℝ × ℝ → ℝ) (φ : ℝ → ℝ → ℝ) (m : Img) (node : ℕ → ℝ) : Prop :=
  ∀ i j, i < m.h → j < m.w → |node i| ≤ L / 2 → |node j| ≤ L / 2 → m.at' i j
    = (L / n) ^ 2 / Real.pi * (∑ a ∈ Finset.range n, ∑ b ∈ Finset.range n,
      f (rowPos L (L / n) b, rowPos L (L / n) a) * φ (node j - rowPos L (L / n) b) (node i - rowPos L (L / n) a))

/-- A node inside the field of view has an index in the table of the kernel for every pixel. -/
theorem node_range {L : ℝ} (hL : 0 < L) {n : ℕ} (hn : 1 ≤ n) {c : ℤ} (h : |-(L / 2) + ((c - n + 1 : ℤ) : ℝ) * (L / n)| ≤ L / 2) :
    (n : ℤ) - 1 ≤ c ∧ c < 2 * n := by
  have hn' : (0 : ℝ) < n := by exact_mod_cast hn
  have hp : 0 < L / n := div_pos hL hn'
  have e : (n : ℝ) * (L / n) = L := by field_simp
  obtain ⟨h1, h2⟩ := abs_le.1 h
  constructor
  · have : (0 : ℝ) ≤ ((c - n + 1 : ℤ) : ℝ) := by
      by_contra hc
      push Not at hc
      have := mul_neg_of_neg_of_pos hc hp
      linarith
    have : (0 : ℤ) ≤ c - n + 1 := by exact_mod_cast this
    linarith
  · have : ((c - n + 1 : ℤ) : ℝ) ≤ n := by
      by_contra hc
      push Not at hc
      have := mul_lt_mul_of_pos_right hc hp
      linarith
    have : (c - n + 1 : ℤ) ≤ n := by exact_mod_cast this
    linarith

theorem sampled_fft {fast : ℕ → ℕ} {L : ℝ} (hL : 0 < L) {n : ℕ} (hn : 1 ≤ n) (hf : 2 * n ≤ fast (2 * n)) (f : ℝ × ℝ → ℝ)
    (scale : ℝ) {K : Img} {φ : ℝ → ℝ → ℝ} (hK : IsKernel (L / n) n K φ) :
    ∃ m, convMap fast ((sampledMap f L n).scale scale) (.spectrum (rfft2 K (fftSize fast n) (fftSize fast n))) (L / n) n "zero" "fft"
        = .ok m ∧ m.h = n ∧ m.w = n ∧ SumsAt L n (fun z => f z * scale) φ m (fftNode L n (fast (2 * n))) := by
  have hs : fftSize fast n = fast (2 * n) := rfl
  have h1 : min n (fftSize fast n) - min 0 (fftSize fast n) = n := by omega
  refine ⟨_, convMap_fft fast _ (L / n) n (padMap_zero _ n), h1, h1, ?_⟩
  intro i j hi hj ni nj
  have hi' : i < n := by
    have : i < min n (fftSize fast n) - min 0 (fftSize fast n) := hi
    omega
  have hj' : j < n := by
    have : j < min n (fftSize fast n) - min 0 (fftSize fast n) := hj
    omega
  rw [fftMap_zero fast n _ K _ rfl rfl (by omega) hi' hj', mul_comm, hs]
  congr 1
  refine Finset.sum_congr rfl fun a ha => Finset.sum_congr rfl fun b hb => ?_
  rw [Finset.mem_range] at ha hb
  obtain ⟨i1, i2⟩ := node_range hL hn (c := (i : ℤ) + ((fast (2 * n) + 1) / 2 : ℕ)) ni
  obtain ⟨j1, j2⟩ := node_range hL hn (c := (j : ℤ) + ((fast (2 * n) + 1) / 2 : ℕ)) nj
  generalize hc : (fast (2 * n) + 1) / 2 = c at *
  have hn' : (n : ℝ) ≠ 0 := Nat.cast_ne_zero.2 (by omega)
  have ker : ∀ k a : ℕ, a < n → (n : ℤ) - 1 ≤ k + c → kerPos (L / n) n (k + c - a)
      = fftNode L n (fast (2 * n)) k - rowPos L (L / n) a := by
    intro k a ha hk
    unfold kerPos fftNode rowPos
    rw [hc, Nat.cast_sub (by omega)]
    push_cast
    ring
  rw [Img.pad, if_pos (by rw [hK.h, hK.w]; omega), hK.val _ _ (by omega) (by omega), ker _ _ hb j1, ker _ _ ha i1]
  change f (pixPos (L / n) n b, pixPos (L / n) n a) * scale * _ = _
  rw [rowPos_pixPos hn, rowPos_pixPos hn]

theorem sampled_conv2d {fast : ℕ → ℕ} {L : ℝ} (hL : 0 < L) {n : ℕ} (hn : 1 ≤ n) (f : ℝ × ℝ → ℝ)
    (scale : ℝ) (padding : String) {K : Img} {φ : ℝ → ℝ → ℝ} (hK : IsKernel (L / n) n K φ) :
    ∃ m, convMap fast ((sampledMap f L n).scale scale) (.direct K) (L / n) n padding "conv2d"
        = .ok m ∧ m.h = 2 * n ∧ m.w = 2 * n ∧ SumsAt L n (fun z => f z * scale) φ m (conv2dNode L n) := by
  obtain ⟨m, h1, h2, h3, hv⟩ := conv2d_map (fast := fast) (κ := (sampledMap f L n).scale scale) padding hK rfl rfl
  refine ⟨m, h1, h2, h3, ?_⟩
  intro i j hi hj ni nj
  rw [hv]
  congr 1
  refine Finset.sum_congr rfl fun a ha => Finset.sum_congr rfl fun b hb => ?_
  rw [Finset.mem_range] at ha hb
  obtain ⟨i1, i2⟩ := node_range hL hn (c := (i : ℤ) + (n / 2 : ℕ)) ni
  obtain ⟨j1, j2⟩ := node_range hL hn (c := (j : ℤ) + (n / 2 : ℕ)) nj
  have hn' : (n : ℝ) ≠ 0 := Nat.cast_ne_zero.2 (by omega)
  have e1 : (i : ℤ) + (n / 2 : ℕ) - a = ((i + n / 2 - a : ℕ) : ℤ) := by omega
  have e2 : (j : ℤ) + (n / 2 : ℕ) - b = ((j + n / 2 - b : ℕ) : ℤ) := by omega
  have ker : ∀ k a : ℕ, a < n → (n : ℤ) - 1 ≤ k + (n / 2 : ℕ) → kerPos (L / n) n (k + n / 2 - a)
      = conv2dNode L n k - rowPos L (L / n) a := by
    intro k a ha hk
    unfold kerPos conv2dNode rowPos
    rw [Nat.cast_sub (by omega)]
    generalize n / 2 = c
    push_cast
    ring
  rw [e1, e2, padZ_pad, Img.pad, if_pos (by rw [hK.h, hK.w]; omega), hK.val _ _ (by omega) (by omega), ker _ _ hb j1, ker _ _ ha i1]
  change f (pixPos (L / n) n b, pixPos (L / n) n a) * scale * _ = _
  rw [rowPos_pixPos hn, rowPos_pixPos hn]

/-! ### The limit -/

/-- A sequence of maps with the same field of view, read at a position. -/
theorem maps_limit {L : ℝ} (hL : 0 < L) {f : ℝ × ℝ → ℝ} (hf : Continuous f) {φ : ℝ → ℝ → ℝ} (hφ : MildKernel φ)
    {w : ℕ → ℕ} (hw : ∀ n, n ≤ w n) {node : ℕ → ℕ → ℝ} (hnode : ∀ n k, ∃ m : ℤ, node n k = -(L / 2) + m * (L / n))
    {x y x0 y0 X Y : ℝ} (hx : |x - x0| ≤ L / 2) (hy : |y - y0| ≤ L / 2) (hX : |X| < L / 2) (hY : |Y| < L / 2)
    {δ : ℕ → ℝ} (hδ : Tendsto δ atTop (𝓝 0))
    (near : ∀ n k : ℕ, 1 ≤ n → (|x - pixelAt x0 (L / w n) (w n) k| ≤ 3 / 2 * (L / w n) → |node n k - X| ≤ δ n) ∧
      (|y - pixelAt y0 (L / w n) (w n) k| ≤ 3 / 2 * (L / w n) → |node n k - Y| ≤ δ n)) {ε : ℝ} (hε : 0 < ε) :
    ∀ᶠ n : ℕ in atTop, ∀ m : Img, m.h = w n → m.w = w n → SumsAt L n f φ m (node n) →
      ∃ r, readMap m x0 y0 (n * (L / n)) x y = .ok r ∧
        |r - 1 / Real.pi * ∫ z in square L, f z * φ (X - z.1) (Y - z.2)| < ε := by
  have hin : ∀ {T : ℝ}, |T| < L / 2 → ∀ᶠ n : ℕ in atTop, |T| + δ n ≤ L / 2 := by
    intro T hT
    exact (hδ.eventually (gt_mem_nhds (by linarith : 0 < L / 2 - |T|))).mono fun n hn => by linarith
  filter_upwards [nodes_limit hL hf hφ hδ X Y (by positivity : 0 < ε / 5), hin hX, hin hY, eventually_ge_atTop 2]
    with n hn inX inY n2 m hh hwm hs
  have hw2 : 2 ≤ w n := n2.trans (hw n)
  have hwp : (0 : ℝ) < w n := by exact_mod_cast (by omega : 0 < w n)
  have hnp : (n : ℝ) ≠ 0 := by exact_mod_cast (by omega : n ≠ 0)
  have efov : (n : ℝ) * (L / n) = L := by field_simp
  obtain ⟨r, hr, hb⟩ := read_near (V := 1 / Real.pi * ∫ z in square L, f z * φ (X - z.1) (Y - z.2)) (ε := ε / 5) hh hwm hw2
    (σ := L / w n) (fov := n * (L / n)) (x := x) (y := y) (x0 := x0) (y0 := y0) (div_pos hL hwp)
    (by rw [efov]; field_simp) (by rw [efov]; exact hx) (by rw [efov]; exact hy) (by
      intro i j hi hj hxj hyi
      have cj := (near n j (by omega)).1 hxj
      have ci := (near n i (by omega)).2 hyi
      have rng : ∀ {T t : ℝ}, |t - T| ≤ δ n → |T| + δ n ≤ L / 2 → |t| ≤ L / 2 := by
        intro T t h1 h2
        have := abs_sub_abs_le_abs_sub t T
        linarith
      rw [hs i j (by omega) (by omega) (rng ci inY) (rng cj inX)]
      exact (hn _ _ (hnode n j) (hnode n i) cj ci).le)
  exact ⟨r, hr, by linarith⟩

theorem scale_integral (f : ℝ × ℝ → ℝ) (φ : ℝ → ℝ → ℝ) (L x y scale : ℝ) :
    1 / Real.pi * ∫ z in square L, f z * scale * φ (x - z.1) (y - z.2)
      = scale * (1 / Real.pi * ∫ z in square L, f z * φ (x - z.1) (y - z.2)) := by
  have : ∀ z : ℝ × ℝ, f z * scale * φ (x - z.1) (y - z.2) = scale * (f z * φ (x - z.1) (y - z.2)) := fun z => by ring
  simp only [this, integral_const_mul]
  ring

/-- C120: in `fft` mode without padding, on finer and finer maps of the same continuous convergence, deflection and
potential tend to those of the convergence inside the field of view, at every position inside.  The transform length may
be any that is asymptotically twice the number of pixels. -/
theorem C120_fft {fast : ℕ → ℕ} (hge : ∀ n, 2 * n ≤ fast (2 * n))
    (hr : Tendsto (fun n : ℕ => (fast (2 * n) : ℝ) / (2 * n)) atTop (𝓝 1)) {f : ℝ × ℝ → ℝ} (hf : Continuous f) {L : ℝ}
    (hL : 0 < L) (window scale : ℝ) {x y x0 y0 : ℝ} (hx : |x - x0| < L / 2) (hy : |y - y0| < L / 2) {ε : ℝ} (hε : 0 < ε) :
    ∃ N : ℕ, ∀ n : ℕ, N ≤ n → ∃ l, PixLens.new fast (L / n) n n "fft" "zero" window = .ok l ∧
      (∃ a b, l.deflection fast x y x0 y0 (sampledMap f L n) scale = .ok (a, b) ∧
        |a - scale * trueDeflectionX f L (x - x0) (y - y0)| < ε ∧
        |b - scale * trueDeflectionY f L (x - x0) (y - y0)| < ε) ∧
      ∃ ψ, l.potential fast x y x0 y0 (sampledMap f L n) scale = .ok ψ ∧
        |ψ - scale * truePotential f L (x - x0) (y - y0)| < ε := by
  have hfs : Continuous fun z => f z * scale := hf.mul continuous_const
  set δ : ℕ → ℝ := fun n => L * ((fast (2 * n) : ℝ) / (2 * n) - 1) + 4 * (L / n) with hδ
  have hδ0 : Tendsto δ atTop (𝓝 0) := by
    have := ((hr.sub_const 1).const_mul L).add ((tendsto_const_div_atTop_nhds_zero_nat L).const_mul 4)
    simpa using this
  have near : ∀ n k : ℕ, 1 ≤ n → ∀ c d : ℝ, |d - pixelAt c (L / n) n k| ≤ 3 / 2 * (L / n) →
      |fftNode L n (fast (2 * n)) k - (d - c)| ≤ δ n := by
    intro n k hn c d hd
    have hn' : (0 : ℝ) < n := by exact_mod_cast hn
    have hp : 0 < L / n := div_pos hL hn'
    have h1 : (fast (2 * n) : ℝ) ≤ 2 * (((fast (2 * n) + 1) / 2 : ℕ) : ℝ) := by exact_mod_cast (by omega)
    have h2 : 2 * (((fast (2 * n) + 1) / 2 : ℕ) : ℝ) ≤ fast (2 * n) + 1 := by exact_mod_cast (by omega)
    have h3 : (2 * n : ℝ) ≤ fast (2 * n) := by exact_mod_cast hge n
    have e1 : δ n = ((fast (2 * n) : ℝ) / 2 - n + 4) * (L / n) := by simp only [hδ]; field_simp
    have e2 : fftNode L n (fast (2 * n)) k - (d - c)
        = ((((fast (2 * n) + 1) / 2 : ℕ) : ℝ) - n + 1 / 2) * (L / n) - (d - pixelAt c (L / n) n k) := by
      unfold fftNode pixelAt
      generalize (fast (2 * n) + 1) / 2 = s
      push_cast
      field_simp
      ring
    rw [e1, e2]
    generalize (((fast (2 * n) + 1) / 2 : ℕ) : ℝ) = s at *
    generalize (fast (2 * n) : ℝ) = t at *
    obtain ⟨a, b⟩ := abs_le.1 hd
    generalize L / (n : ℝ) = h at *
    rw [abs_le]
    constructor <;> nlinarith
  have lim : ∀ {φ : ℝ → ℝ → ℝ}, MildKernel φ → _ := fun hφ =>
    maps_limit hL hfs hφ (w := fun n => n) (fun n => le_rfl) (node := fun n => fftNode L n (fast (2 * n)))
      (fun n k => ⟨_, rfl⟩) hx.le hy.le hx hy hδ0 (fun n k hn => ⟨near n k hn x0 x, near n k hn y0 y⟩) hε
  obtain ⟨N, hN⟩ := eventually_atTop.1 ((lim mild_x).and ((lim mild_y).and ((lim mild_log).and (eventually_ge_atTop 2))))
  refine ⟨N, fun n hn => ⟨_, new_fft fast (L / n) n window, ?_⟩⟩
  obtain ⟨lx, ly, lp, n2⟩ := hN n hn
  obtain ⟨mx, hmx, x1, x2, x3⟩ := sampled_fft (fast := fast) hL (by omega : 1 ≤ n) (hge n) f scale (isKernel_x (L / n) n)
  obtain ⟨my, hmy, y1, y2, y3⟩ := sampled_fft (fast := fast) hL (by omega : 1 ≤ n) (hge n) f scale (isKernel_y (L / n) n)
  obtain ⟨mp, hmp, p1, p2, p3⟩ := sampled_fft (fast := fast) hL (by omega : 1 ≤ n) (hge n) f scale (isKernel_pot (L / n) n)
  obtain ⟨a, ha, ea⟩ := lx mx x1 x2 x3
  obtain ⟨b, hb, eb⟩ := ly my y1 y2 y3
  obtain ⟨ψ, hψ, eψ⟩ := lp mp p1 p2 p3
  rw [scale_integral f (fun x y => x / (x ^ 2 + y ^ 2))] at ea
  rw [scale_integral f (fun x y => y / (x ^ 2 + y ^ 2))] at eb
  rw [scale_integral f (fun x y => Real.log (Real.sqrt (x ^ 2 + y ^ 2)))] at eψ
  refine ⟨⟨a, b, ?_, ea, eb⟩, ψ, ?_, eψ⟩
  · simp [PixLens.deflection, deflectionPixConv, hmx, hmy, ha, hb, Bind.bind, Except.bind, Pure.pure, Except.pure]
  · simp [PixLens.potential, potentialPixConv, hmp, hψ, Bind.bind, Except.bind]

/-- C120: in `conv2d` mode the deflection and the potential tend, in the inner quarter of the field of view, to those of the
convergence at twice the distance from the centre. -/
theorem C120_conv2d (fast : ℕ → ℕ) {f : ℝ × ℝ → ℝ} (hf : Continuous f) {L : ℝ} (hL : 0 < L) (padding : String)
    (window scale : ℝ) {x y x0 y0 : ℝ} (hx : |x - x0| < L / 4) (hy : |y - y0| < L / 4) {ε : ℝ} (hε : 0 < ε) :
    ∃ N : ℕ, ∀ n : ℕ, N ≤ n → ∃ l, PixLens.new fast (L / n) n n "conv2d" padding window = .ok l ∧
      (∃ a b, l.deflection fast x y x0 y0 (sampledMap f L n) scale = .ok (a, b) ∧
        |a - scale * trueDeflectionX f L (2 * (x - x0)) (2 * (y - y0))| < ε ∧
        |b - scale * trueDeflectionY f L (2 * (x - x0)) (2 * (y - y0))| < ε) ∧
      ∃ ψ, l.potential fast x y x0 y0 (sampledMap f L n) scale = .ok ψ ∧
        |ψ - scale * truePotential f L (2 * (x - x0)) (2 * (y - y0))| < ε := by
  have hfs : Continuous fun z => f z * scale := hf.mul continuous_const
  have hδ0 : Tendsto (fun n : ℕ => 4 * (L / n)) atTop (𝓝 0) := by
    simpa using (tendsto_const_div_atTop_nhds_zero_nat L).const_mul 4
  have near : ∀ n k : ℕ, 1 ≤ n → ∀ c d : ℝ, |d - pixelAt c (L / (2 * n : ℕ)) (2 * n) k| ≤ 3 / 2 * (L / (2 * n : ℕ)) →
      |conv2dNode L n k - 2 * (d - c)| ≤ 4 * (L / n) := by
    intro n k hn c d hd
    have hn' : (0 : ℝ) < n := by exact_mod_cast hn
    have hp : 0 < L / n := div_pos hL hn'
    have h1 : (n : ℝ) ≤ 2 * ((n / 2 : ℕ) : ℝ) + 1 := by exact_mod_cast (by omega)
    have h2 : 2 * ((n / 2 : ℕ) : ℝ) ≤ n := by exact_mod_cast (by omega)
    have e0 : L / (2 * n : ℕ) = (L / n) / 2 := by push_cast; field_simp
    have e2 : conv2dNode L n k - 2 * (d - c)
        = (((n / 2 : ℕ) : ℝ) - n / 2 + 1 / 2) * (L / n) - 2 * (d - pixelAt c (L / (2 * n : ℕ)) (2 * n) k) := by
      unfold conv2dNode pixelAt
      rw [e0]
      generalize n / 2 = s
      push_cast
      field_simp
      ring
    rw [e2]
    rw [e0] at hd ⊢
    generalize ((n / 2 : ℕ) : ℝ) = s at *
    obtain ⟨a, b⟩ := abs_le.1 hd
    generalize L / (n : ℝ) = h at *
    rw [abs_le]
    constructor <;> nlinarith
  have h2 : ∀ {t : ℝ}, |t| < L / 4 → |2 * t| < L / 2 := fun ht => by rw [abs_mul, abs_two]; linarith
  have lim : ∀ {φ : ℝ → ℝ → ℝ}, MildKernel φ → _ := fun hφ =>
    maps_limit hL hfs hφ (w := fun n => 2 * n) (fun n => by omega) (node := fun n => conv2dNode L n)
      (fun n k => ⟨_, rfl⟩) (x := x) (y := y) (x0 := x0) (y0 := y0) (by linarith) (by linarith) (h2 hx) (h2 hy) hδ0
      (fun n k hn => ⟨near n k hn x0 x, near n k hn y0 y⟩) hε
  obtain ⟨N, hN⟩ := eventually_atTop.1 ((lim mild_x).and ((lim mild_y).and ((lim mild_log).and (eventually_ge_atTop 2))))
  refine ⟨N, fun n hn => ⟨_, new_conv2d fast (L / n) n padding window, ?_⟩⟩
  obtain ⟨lx, ly, lp, n2⟩ := hN n hn
  obtain ⟨mx, hmx, x1, x2, x3⟩ := sampled_conv2d (fast := fast) hL (by omega : 1 ≤ n) f scale padding (isKernel_x (L / n) n)
  obtain ⟨my, hmy, y1, y2, y3⟩ := sampled_conv2d (fast := fast) hL (by omega : 1 ≤ n) f scale padding (isKernel_y (L / n) n)
  obtain ⟨mp, hmp, p1, p2, p3⟩ := sampled_conv2d (fast := fast) hL (by omega : 1 ≤ n) f scale padding (isKernel_pot (L / n) n)
  obtain ⟨a, ha, ea⟩ := lx mx x1 x2 x3
  obtain ⟨b, hb, eb⟩ := ly my y1 y2 y3
  obtain ⟨ψ, hψ, eψ⟩ := lp mp p1 p2 p3
  rw [scale_integral f (fun x y => x / (x ^ 2 + y ^ 2))] at ea
  rw [scale_integral f (fun x y => y / (x ^ 2 + y ^ 2))] at eb
  rw [scale_integral f (fun x y => Real.log (Real.sqrt (x ^ 2 + y ^ 2)))] at eψ
  refine ⟨⟨a, b, ?_, ea, eb⟩, ψ, ?_, eψ⟩
  · simp [PixLens.deflection, deflectionPixConv, hmx, hmy, ha, hb, Bind.bind, Except.bind, Pure.pure, Except.pure]
  · simp [PixLens.potential, potentialPixConv, hmp, hψ, Bind.bind, Except.bind]

/-! ### The two modes differ in the limit -/

/-- C120: the claim for both modes. -/
def C120_statement : Prop :=
  ∀ mode, mode = "fft" ∨ mode = "conv2d" → ∀ fast : ℕ → ℕ, (∀ n, 2 * n ≤ fast (2 * n)) →
    Tendsto (fun n : ℕ => (fast (2 * n) : ℝ) / (2 * n)) atTop (𝓝 1) → ∀ f : ℝ × ℝ → ℝ, Continuous f → ∀ L : ℝ, 0 < L →
    ∀ window scale x y x0 y0 : ℝ, |x - x0| < L / 2 → |y - y0| < L / 2 → ∀ ε > 0,
    ∃ N : ℕ, ∀ n : ℕ, N ≤ n → ∃ l, PixLens.new fast (L / n) n n mode "zero" window = .ok l ∧
      ∃ a b, l.deflection fast x y x0 y0 (sampledMap f L n) scale = .ok (a, b) ∧
        |a - scale * trueDeflectionX f L (x - x0) (y - y0)| < ε ∧
        |b - scale * trueDeflectionY f L (x - x0) (y - y0)| < ε

/-- A convergence in a wedge to the left of the centre. -/
noncomputable def wedge (z : ℝ × ℝ) : ℝ := max 0 (-z.1 - |z.2|)

theorem continuous_wedge : Continuous wedge := by unfold wedge; fun_prop

/-- The integrand of the deflection by the wedge, without its harmless singularity to the right. -/
noncomputable def wedgePull (x : ℝ) (z : ℝ × ℝ) : ℝ := wedge z * ((x - min z.1 0) / ((x - min z.1 0) ^ 2 + z.2 ^ 2))

theorem wedgePull_eq (x : ℝ) (z : ℝ × ℝ) : wedge z * ((x - z.1) / ((x - z.1) ^ 2 + (0 - z.2) ^ 2)) = wedgePull x z := by
  unfold wedgePull
  rcases le_total z.1 0 with h | h
  · rw [min_eq_left h, zero_sub, neg_sq]
  · have : wedge z = 0 := max_eq_left (by linarith [abs_nonneg z.2])
    rw [this, zero_mul, zero_mul]

theorem continuous_wedgePull {x : ℝ} (hx : 0 < x) : Continuous (wedgePull x) := by
  have : ∀ z : ℝ × ℝ, (x - min z.1 0) ^ 2 + z.2 ^ 2 ≠ 0 := by
    intro z
    have : 0 < x - min z.1 0 := by linarith [min_le_right z.1 0]
    positivity
  have hw := continuous_wedge
  unfold wedgePull
  fun_prop (disch := assumption)

theorem square_finite (L : ℝ) {g : ℝ × ℝ → ℝ} (hg : Continuous g) : IntegrableOn g (square L) :=
  (hg.continuousOn.integrableOn_compact (isCompact_Icc.prod isCompact_Icc :
    IsCompact (Icc (-(L / 2)) (L / 2) ×ˢ Icc (-(L / 2)) (L / 2)))).mono_set
      (prod_mono Ioc_subset_Icc_self Ioc_subset_Icc_self)

/-- The pull of the wedge decreases to the right. -/
theorem wedge_decreasing {L x x' : ℝ} (hL : 0 < L) (hx : 0 < x) (hxx : x < x') :
    trueDeflectionX wedge L x' 0 < trueDeflectionX wedge L x 0 := by
  unfold trueDeflectionX
  simp only [wedgePull_eq]
  have hpi := Real.pi_pos
  refine mul_lt_mul_of_pos_left ?_ (by positivity)
  rw [← sub_pos, ← integral_sub (square_finite L (continuous_wedgePull hx)) (square_finite L (continuous_wedgePull (hx.trans hxx)))]
  have key : ∀ z : ℝ × ℝ, wedgePull x z - wedgePull x' z = wedge z *
      ((x' - x) * ((x - min z.1 0) * (x' - min z.1 0) - z.2 ^ 2) /
        (((x - min z.1 0) ^ 2 + z.2 ^ 2) * ((x' - min z.1 0) ^ 2 + z.2 ^ 2))) := by
    intro z
    unfold wedgePull
    have h1 : 0 < x - min z.1 0 := by linarith [min_le_right z.1 0]
    have h2 : 0 < x' - min z.1 0 := by linarith [min_le_right z.1 0]
    have a1 : (x - min z.1 0) ^ 2 + z.2 ^ 2 ≠ 0 := by positivity
    have a2 : (x' - min z.1 0) ^ 2 + z.2 ^ 2 ≠ 0 := by positivity
    field_simp
    ring
  have pos : ∀ z : ℝ × ℝ, 0 < -z.1 - |z.2| → 0 < wedgePull x z - wedgePull x' z := by
    intro z hz
    have h0 := abs_nonneg z.2
    rw [key, min_eq_left (by linarith), wedge, max_eq_right hz.le]
    have h1 : 0 < x - z.1 := by linarith
    have h2 : 0 < x' - z.1 := by linarith
    have h3 : 0 < (x - z.1) * (x' - z.1) - z.2 ^ 2 := by
      rw [← sq_abs z.2]
      nlinarith
    have h4 : 0 < x' - x := by linarith
    positivity
  have nonneg : ∀ z : ℝ × ℝ, 0 ≤ wedgePull x z - wedgePull x' z := by
    intro z
    rcases lt_or_ge 0 (-z.1 - |z.2|) with h | h
    · exact (pos z h).le
    · rw [key, wedge, max_eq_left h, zero_mul]
  rw [setIntegral_pos_iff_support_of_nonneg_ae (Eventually.of_forall nonneg)
    ((square_finite L (continuous_wedgePull hx)).sub (square_finite L (continuous_wedgePull (hx.trans hxx))))]
  have hsub : Ioo (-(L / 2)) (-(L / 4)) ×ˢ Ioo (-(L / 4)) (L / 4) ⊆
      Function.support (fun z => wedgePull x z - wedgePull x' z) ∩ square L := by
    rintro z ⟨⟨a, b⟩, c, d⟩
    refine ⟨(pos z ?_).ne', ⟨a, by linarith⟩, by linarith, by linarith⟩
    have : |z.2| < L / 4 := abs_lt.2 ⟨by linarith, d⟩
    linarith
  refine lt_of_lt_of_le ?_ (measure_mono hsub)
  refine (isOpen_Ioo.prod isOpen_Ioo).measure_pos volume ⟨(-(3 * L / 8), 0), ⟨?_, ?_⟩, ?_, ?_⟩ <;> simp only <;> linarith

/-- C120: in `conv2d` mode the deflection does not tend to that of the convergence. -/
theorem C120_fails_conv2d : ¬ C120_statement := by
  intro H
  have hr : Tendsto (fun n : ℕ => ((2 * n : ℕ) : ℝ) / (2 * n)) atTop (𝓝 1) := by
    refine tendsto_const_nhds.congr' ((eventually_gt_atTop 0).mono fun n hn => ?_)
    have : (n : ℝ) ≠ 0 := by exact_mod_cast hn.ne'
    push_cast
    field_simp
  have hd := wedge_decreasing (L := 2) two_pos (by norm_num : (0 : ℝ) < 1 / 4) (by norm_num : (1 / 4 : ℝ) < 1 / 2)
  set A := trueDeflectionX wedge 2 (1 / 4) 0 with hA
  set B := trueDeflectionX wedge 2 (1 / 2) 0 with hB
  obtain ⟨N, hN⟩ := H "conv2d" (Or.inr rfl) id (fun _ => le_rfl) hr wedge continuous_wedge 2 two_pos 0 1 (1 / 4) 0 0 0
    (by norm_num) (by norm_num) ((A - B) / 2) (by linarith)
  obtain ⟨M, hM⟩ := C120_conv2d id continuous_wedge (L := 2) two_pos "zero" 0 1 (x := 1 / 4) (y := 0) (x0 := 0) (y0 := 0)
    (by norm_num) (by norm_num) (ε := (A - B) / 2) (by linarith)
  obtain ⟨l, hl, a, b, e, h1, -⟩ := hN (max N M) (le_max_left _ _)
  obtain ⟨l', hl', ⟨a', b', e', h2, -⟩, -⟩ := hM (max N M) (le_max_right _ _)
  rw [hl, Except.ok.injEq] at hl'
  subst hl'
  rw [e, Except.ok.injEq, Prod.mk.injEq] at e'
  rw [← e'.1] at h2
  rw [one_mul, sub_zero, sub_zero, ← hA] at h1
  rw [one_mul, sub_zero, sub_zero, mul_zero, show (2 * (1 / 4) : ℝ) = 1 / 2 by norm_num, ← hB] at h2
  have g1 := (abs_lt.1 h1).1
  have g2 := (abs_lt.1 h2).2
  linarith

/-- A Gaussian convergence on maps with twice as many pixels each time. -/
example : ∃ N : ℕ, ∀ n : ℕ, N ≤ n → ∃ l, PixLens.new id (5 / n) n n "fft" "zero" 0 = .ok l ∧
    (∃ a b, l.deflection id 1 1 0 0 (sampledMap (fun z => Real.exp (-(z.1 ^ 2 + z.2 ^ 2))) 5 n) 2 = .ok (a, b) ∧
      |a - 2 * trueDeflectionX (fun z => Real.exp (-(z.1 ^ 2 + z.2 ^ 2))) 5 (1 - 0) (1 - 0)| < 1 / 1000 ∧
      |b - 2 * trueDeflectionY (fun z => Real.exp (-(z.1 ^ 2 + z.2 ^ 2))) 5 (1 - 0) (1 - 0)| < 1 / 1000) ∧
    ∃ ψ, l.potential id 1 1 0 0 (sampledMap (fun z => Real.exp (-(z.1 ^ 2 + z.2 ^ 2))) 5 n) 2 = .ok ψ ∧
      |ψ - 2 * truePotential (fun z => Real.exp (-(z.1 ^ 2 + z.2 ^ 2))) 5 (1 - 0) (1 - 0)| < 1 / 1000 := by
  refine C120_fft (fun _ => le_rfl) ?_ (by fun_prop) (by norm_num) 0 2 (by norm_num) (by norm_num) (by norm_num)
  refine tendsto_const_nhds.congr' ((eventually_gt_atTop 0).mono fun n hn => ?_)
  have : (n : ℝ) ≠ 0 := by exact_mod_cast hn.ne'
  simp only [id]
  push_cast
  field_simp

end Caustics

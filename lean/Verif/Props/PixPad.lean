import Verif.Props.PixConv
import Mathlib.Analysis.Real.Sqrt

/-!
C61: a `PixelatedConvergence` that was switched to a mode is the same as one constructed with it.
C62: the periodic paddings of the `fft` mode.
-/

namespace Caustics

/-! ### C61 -/

/-- Switching to a mode gives the lens that the constructor makes for that mode. -/
def C61_statement : Prop :=
  ∀ (fast : ℕ → ℕ) (ps : ℝ) (n : ℕ) (padding : String) (window : ℝ) (m m' : String) (l l' : PixLens),
    PixLens.new fast ps n n m padding window = .ok l → PixLens.new fast ps n n m' padding window = .ok l' →
    ∀ x y x0 y0 κ scale, (l.setMode fast m').1.deflection fast x y x0 y0 κ scale = l'.deflection fast x y x0 y0 κ scale

/-- C61: true with zero padding, or without a window. -/
theorem C61_switch_partial {fast : ℕ → ℕ} {ps : ℝ} {n : ℕ} {padding : String} {window : ℝ} {m m' : String} {l l' : PixLens}
    (hp : padding = "zero" ∨ window ≤ 0) (h : PixLens.new fast ps n n m padding window = .ok l)
    (h' : PixLens.new fast ps n n m' padding window = .ok l') : l.setMode fast m' = (l', none) := by
  have hw : ∀ q : String, ¬ (padding ≠ "zero" ∧ q = "fft" ∧ window > 0) := by
    rintro q ⟨h1, -, h2⟩
    rcases hp with hp | hp
    · exact h1 hp
    · exact absurd h2 (not_lt.2 hp)
  have hnew : ∀ (q : String) (k : PixLens), PixLens.new fast ps n n q padding window = .ok k →
      PixLens.setMode fast ⟨n, ps, padding, (buildKernels ps n).1, (buildKernels ps n).2.1, (buildKernels ps n).2.2,
        none, none, none, none⟩ q = (k, none) := by
    intro q k hk
    unfold PixLens.new at hk
    rw [if_neg (by simp)] at hk
    simp only [hw q, if_false] at hk
    cases hs : PixLens.setMode fast ⟨n, ps, padding, (buildKernels ps n).1, (buildKernels ps n).2.1,
      (buildKernels ps n).2.2, none, none, none, none⟩ q with
    | mk k' e =>
      rw [hs] at hk
      cases e with
      | none => simp only [Except.ok.injEq] at hk; rw [hk]
      | some e => cases hk
  have h1 := hnew m l h
  have h2 := hnew m' l' h'
  have hm' : m' = "fft" ∨ m' = "conv2d" := by
    by_contra hc
    rw [(C56_assign fast _ m').1 (not_or.1 hc)] at h2
    simp at h2
  have hl : l = (PixLens.setMode fast ⟨n, ps, padding, (buildKernels ps n).1, (buildKernels ps n).2.1,
      (buildKernels ps n).2.2, none, none, none, none⟩ m).1 := by rw [h1]
  have hf := C56_last fast ⟨n, ps, padding, (buildKernels ps n).1, (buildKernels ps n).2.1,
      (buildKernels ps n).2.2, none, none, none, none⟩ (m := m) hm'
  rw [← hl, h2] at hf
  have hn : (l.setMode fast m').2 = none := by
    obtain ⟨k, hk, -⟩ := (C56_assign fast l m').2 hm'
    rw [hk]
  exact Prod.ext hf hn

/-- The hypotheses hold for a two by two map with the default (zero) padding. -/
example : ∃ l l' : PixLens, PixLens.new id 1 2 2 "conv2d" "zero" (1 / 8) = .ok l ∧
    PixLens.new id 1 2 2 "fft" "zero" (1 / 8) = .ok l' ∧ l.setMode id "fft" = (l', none) :=
  ⟨_, _, new_conv2d id 1 2 "zero" (1 / 8), new_fft id 1 2 (1 / 8),
    C61_switch_partial (.inl rfl) (new_conv2d id 1 2 "zero" (1 / 8)) (new_fft id 1 2 (1 / 8))⟩

/-- One bright pixel in a corner. -/
def delta2 : Img := ⟨2, 2, fun i j => if i = 0 ∧ j = 0 then 1 else 0⟩

/-- The tiled map of `delta2`, read at the first pixel, for any kernel of four rows and columns. -/
theorem delta2_tile (K : Img) (hh : K.h = 4) (hw : K.w = 4) :
    ∃ m, convMap id (delta2.scale 1) (.spectrum (rfft2 K (fftSize id 2) (fftSize id 2))) 1 2 "tile" "fft" = .ok m ∧
      m.h = 2 ∧ m.w = 2 ∧
      m.at' 0 0 = (K.at' 2 2 + K.at' 2 0 + (K.at' 0 2 + K.at' 0 0)) * (1 ^ 2 / Real.pi) := by
  have hpad : padMap (delta2.scale 1) 2 "tile" = .ok ⟨4, 4, fun i j => (delta2.scale 1).at' (i % 2) (j % 2)⟩ := by
    simp [padMap, delta2, Img.scale]
  refine ⟨_, convMap_fft id _ 1 2 hpad, rfl, rfl, ?_⟩
  rw [fftMap_at id 2 _ K _ (by decide) (by omega) (by omega)]
  congr 1
  have hs : fftSize id 2 = 4 := rfl
  simp only [hs, Finset.sum_range_succ, Finset.sum_range_zero, Img.per, Img.pad, hh, hw, delta2, Img.scale]
  norm_num
  rfl

theorem windowed_at (n : ℕ) (window : ℝ) (K : Img) (i j : ℕ) :
    (K.mul (buildWindow window n)).at' i j = K.at' i j * (buildWindow window n).at' i j := rfl

theorem linspace_at {n : ℕ} (hn : 2 ≤ n) {i : ℕ} (hi : i < n) :
    (linspace (-1 : ℝ) 1 n).getD i 0 = -1 + i * (2 / ((n : ℝ) - 1)) := by
  rw [List.getD_eq_getElem?_getD]
  simp only [linspace, List.getElem?_map, List.getElem?_range hi, Option.map_some, Option.getD_some]
  rw [if_neg (by omega)]
  norm_num

theorem window_at {n : ℕ} (hn : 2 ≤ n) (window : ℝ) {i j : ℕ} (hi : i < n) (hj : j < n) :
    (buildWindow window n).at' i j = min (max ((1 - Real.sqrt ((-1 + j * (2 / ((n : ℝ) - 1))) ^ 2
      + (-1 + i * (2 / ((n : ℝ) - 1))) ^ 2)) / window) 0) 1 := by
  have hlen : (linspace (-1 : ℝ) 1 n).length = n := by simp [linspace]
  have h1 : ((meshgridXY (linspace (-1 : ℝ) 1 n) (linspace (-1) 1 n)).1.getD i []).getD j 0 = -1 + j * (2 / ((n : ℝ) - 1)) := by
    rw [← linspace_at hn hj]
    simp only [meshgridXY]
    rw [List.getD_eq_getElem?_getD (l := List.map _ _), List.getElem?_map,
      List.getElem?_eq_getElem (by omega : i < (linspace (-1 : ℝ) 1 n).length)]
    rfl
  have h2 : ((meshgridXY (linspace (-1 : ℝ) 1 n) (linspace (-1) 1 n)).2.getD i []).getD j 0 = -1 + i * (2 / ((n : ℝ) - 1)) := by
    rw [← linspace_at hn hi]
    simp only [meshgridXY]
    rw [List.getD_eq_getElem?_getD (l := List.map _ _), List.getElem?_map,
      List.getElem?_eq_getElem (by omega : i < (linspace (-1 : ℝ) 1 n).length)]
    simp only [Option.map_some, Option.getD_some]
    rw [List.getD_eq_getElem?_getD, List.getElem?_map,
      List.getElem?_eq_getElem (by omega : j < (linspace (-1 : ℝ) 1 n).length), List.getD_eq_getElem?_getD,
      List.getElem?_eq_getElem (by omega : i < (linspace (-1 : ℝ) 1 n).length)]
    rfl
  unfold buildWindow
  simp only [h1, h2]

/-- The window vanishes at distance one and beyond. -/
theorem window_zero {n : ℕ} (hn : 2 ≤ n) {window : ℝ} (hw : 0 < window) {i j : ℕ} (hi : i < n) (hj : j < n)
    (h : 1 ≤ (-1 + j * (2 / ((n : ℝ) - 1))) ^ 2 + (-1 + i * (2 / ((n : ℝ) - 1))) ^ 2) :
    (buildWindow window n).at' i j = 0 := by
  rw [window_at hn window hi hj]
  have : 1 ≤ Real.sqrt ((-1 + j * (2 / ((n : ℝ) - 1))) ^ 2 + (-1 + i * (2 / ((n : ℝ) - 1))) ^ 2) := by
    rw [Real.one_le_sqrt]; exact h
  rw [max_eq_right]
  · simp
  · exact div_nonpos_of_nonpos_of_nonneg (by linarith) hw.le

/-- and is one inside `1 - window`. -/
theorem window_one {n : ℕ} (hn : 2 ≤ n) {window : ℝ} (hw : 0 < window) (hw1 : window ≤ 1) {i j : ℕ} (hi : i < n) (hj : j < n)
    (h : (-1 + j * (2 / ((n : ℝ) - 1))) ^ 2 + (-1 + i * (2 / ((n : ℝ) - 1))) ^ 2 ≤ (1 - window) ^ 2) :
    (buildWindow window n).at' i j = 1 := by
  rw [window_at hn window hi hj]
  have : Real.sqrt ((-1 + j * (2 / ((n : ℝ) - 1))) ^ 2 + (-1 + i * (2 / ((n : ℝ) - 1))) ^ 2) ≤ 1 - window := by
    rw [Real.sqrt_le_left (by linarith)]; exact h
  have h1 : 1 ≤ (1 - Real.sqrt ((-1 + j * (2 / ((n : ℝ) - 1))) ^ 2 + (-1 + i * (2 / ((n : ℝ) - 1))) ^ 2)) / window := by
    rw [one_le_div hw]; linarith
  rw [max_eq_left (by linarith), min_eq_right h1]

/-- C61 fails with another padding: the window is applied by the constructor only, and only if it starts
in `fft` mode. -/
theorem C61_fails : ¬ C61_statement := by
  intro H
  have hl := new_conv2d id 1 2 "tile" (1 / 8)
  have hl' : PixLens.new id 1 2 2 "fft" "tile" (1 / 8) = .ok ⟨2, 1, "tile",
      (buildKernels 1 2).1.mul (buildWindow (1 / 8) 4), (buildKernels 1 2).2.1.mul (buildWindow (1 / 8) 4),
      (buildKernels 1 2).2.2,
      some (.spectrum (rfft2 ((buildKernels 1 2).1.mul (buildWindow (1 / 8) 4)) (fftSize id 2) (fftSize id 2))),
      some (.spectrum (rfft2 ((buildKernels 1 2).2.1.mul (buildWindow (1 / 8) 4)) (fftSize id 2) (fftSize id 2))),
      some (.spectrum (rfft2 (buildKernels 1 2).2.2 (fftSize id 2) (fftSize id 2))), some "fft"⟩ := by
    simp [PixLens.new, PixLens.setMode]
  have := H id 1 2 "tile" (1 / 8) "conv2d" "fft" _ _ hl hl' (-(1 / 2)) (-(1 / 2)) 0 0 delta2 1
  rw [setMode_fft] at this
  obtain ⟨m1, a1, a2, a3, a4⟩ := delta2_tile (buildKernels 1 2).1 rfl rfl
  obtain ⟨m2, b1, b2, b3, b4⟩ := delta2_tile (buildKernels 1 2).2.1 rfl rfl
  obtain ⟨m3, c1, c2, c3, c4⟩ := delta2_tile ((buildKernels 1 2).1.mul (buildWindow (1 / 8) 4)) rfl rfl
  obtain ⟨m4, d1, d2, d3, d4⟩ := delta2_tile ((buildKernels 1 2).2.1.mul (buildWindow (1 / 8) 4)) rfl rfl
  have e : (-(1 / 2) - 0 : ℝ) / ((2 : ℕ) * 1 / 2) = centre 2 0 := by unfold centre; norm_num
  have read : ∀ m : Img, m.h = 2 → m.w = 2 → readMap m 0 0 ((2 : ℕ) * 1) (-(1 / 2)) (-(1 / 2)) = .ok (m.at' 0 0) := by
    intro m h1 h2
    exact readMap_centre m (by omega) (by omega) (by omega) (by omega) (by rw [h2]; exact e) (by rw [h1]; exact e)
  simp only [PixLens.deflection, deflectionPixConv, a1, b1, c1, d1, bind, Except.bind, read m1 a2 a3, read m2 b2 b3,
    read m3 c2 c3, read m4 d2 d3, pure, Except.pure, Except.ok.injEq, Prod.mk.injEq] at this
  have h := this.1
  rw [a4, c4] at h
  simp only [windowed_at] at h
  rw [window_one (i := 2) (j := 2) (by omega) (by norm_num) (by norm_num) (by omega) (by omega) (by norm_num),
    window_zero (i := 2) (j := 0) (by omega) (by norm_num) (by omega) (by omega) (by norm_num),
    window_zero (i := 0) (j := 2) (by omega) (by norm_num) (by omega) (by omega) (by norm_num),
    window_zero (i := 0) (j := 0) (by omega) (by norm_num) (by omega) (by omega) (by norm_num)] at h
  have k : ∀ i j : ℕ, i < 4 → j < 4 → (buildKernels 1 2).1.at' i j = kerPos 1 2 j / (kerPos 1 2 j ^ 2 + kerPos 1 2 i ^ 2) :=
    fun i j hi hj => (kernels_at 1 2 hi hj).1
  rw [k 2 2 (by omega) (by omega), k 2 0 (by omega) (by omega), k 0 2 (by omega) (by omega),
    k 0 0 (by omega) (by omega)] at h
  have hpi : 0 < (Real.pi)⁻¹ := inv_pos.2 Real.pi_pos
  simp only [kerPos] at h
  norm_num at h

/-! ### C62 -/

/-- Cyclic translation of a square map by `(d0, d1)` pixels. -/
def Img.cyc (x : Img) (d0 d1 : ℕ) : Img :=
  ⟨x.h, x.w, fun i j => x.at' ((i + d0) % x.h) ((j + d1) % x.w)⟩

theorem sum_shift_int {n : ℕ} (f : ℤ → ℝ) (hf : ∀ k, f (k + n) = f k) (t : ℤ) :
    ∑ a ∈ Finset.range n, f (a + t) = ∑ a ∈ Finset.range n, f a := by
  obtain ⟨k, rfl | rfl⟩ := Int.eq_nat_or_neg t
  · have := sum_shift (n := n) (fun x => f (x + k)) (fun x => by rw [← hf (x + k)]; congr 1; ring) k
    simp only [sub_add_cancel] at this
    exact this.symm
  · simpa [sub_eq_add_neg] using sum_shift f hf k

/-- The translation argument in one place: `κ` has period `n`, `K` has period `2 n`. -/
theorem tile_shift {n : ℕ} (hn : 1 ≤ n) (κ : ℤ → ℤ → ℝ) (K : ℤ → ℤ → ℝ) (h1 : ∀ i j, κ (i + n) j = κ i j)
    (h2 : ∀ i j, κ i (j + n) = κ i j) (k1 : ∀ i j, K (i + (2 * n : ℕ)) j = K i j)
    (k2 : ∀ i j, K i (j + (2 * n : ℕ)) = K i j) (i j d0 d1 : ℤ) :
    ∑ a ∈ Finset.range (2 * n), ∑ b ∈ Finset.range (2 * n), κ (a + d0) (b + d1) * K (i + n - a) (j + n - b)
      = ∑ a ∈ Finset.range (2 * n), ∑ b ∈ Finset.range (2 * n),
          κ a b * K ((i + d0) % n + n - a) ((j + d1) % n + n - b) := by
  have m1 : ∀ i j (q : ℤ), κ (i + n * q) j = κ i j := by
    intro i j q
    have hp : Function.Periodic (fun i => κ i j) (n : ℤ) := fun i => h1 i j
    have := hp.int_mul q i
    simpa [mul_comm] using this
  have m2 : ∀ i j (q : ℤ), κ i (j + n * q) = κ i j := by
    intro i j q
    have hp : Function.Periodic (fun j => κ i j) (n : ℤ) := fun j => h2 i j
    have := hp.int_mul q j
    simpa [mul_comm] using this
  have hi := Int.emod_add_mul_ediv (i + d0) n
  have hj := Int.emod_add_mul_ediv (j + d1) n
  generalize (i + d0) / n = q0 at *
  generalize (j + d1) / n = q1 at *
  generalize (i + d0) % n = i' at *
  generalize (j + d1) % n = j' at *
  rw [← sum_shift_int (n := 2 * n) (fun a => ∑ b ∈ Finset.range (2 * n), κ a b * K (i' + n - a) (j' + n - b)) ?_
    (d0 - n * q0)]
  · refine Finset.sum_congr rfl fun a _ => ?_
    rw [← sum_shift_int (n := 2 * n) (fun b => κ (a + (d0 - n * q0)) b * K (i' + n - (a + (d0 - n * q0))) (j' + n - b)) ?_
      (d1 - n * q1)]
    · refine Finset.sum_congr rfl fun b _ => ?_
      have e1 : κ (a + (d0 - n * q0)) (b + (d1 - n * q1)) = κ (a + d0) (b + d1) := by
        rw [← m1 _ _ q0, ← m2 _ _ q1]
        congr 1 <;> ring
      rw [e1]
      congr 2 <;> linarith
    · intro b
      have : κ (a + (d0 - n * q0)) (b + (2 * n : ℕ)) = κ (a + (d0 - n * q0)) b := by
        rw [← m2 _ b 2]; congr 1; push_cast; ring
      rw [this, ← k2 _ (j' + n - (b + (2 * n : ℕ)))]
      congr 2; ring
  · intro a
    refine Finset.sum_congr rfl fun b _ => ?_
    have : κ (a + (2 * n : ℕ)) b = κ a b := by
      rw [← m1 a b 2]; congr 1; push_cast; ring
    rw [this, ← k1 (i' + n - (a + (2 * n : ℕ)))]
    congr 2; ring

theorem padMap_tile (κ : Img) (n : ℕ) :
    padMap κ n "tile" = .ok ⟨2 * κ.h, 2 * κ.w, fun i j => κ.at' (i % κ.h) (j % κ.w)⟩ := by simp [padMap]

/-- The map of the `fft` mode with `tile` padding as a sum over the doubled map. -/
theorem tileMap_at {fast : ℕ → ℕ} {n : ℕ} (hf : fast (2 * n) = 2 * n) {κ K : Img} (t : ℝ)
    (hh : κ.h = n) (hw : κ.w = n) {i j : ℕ} (hi : i < n) (hj : j < n) :
    (unpadFft fast ((irfft2 (fun u v => rfft2 (⟨2 * κ.h, 2 * κ.w, fun i j => κ.at' (i % κ.h) (j % κ.w)⟩ : Img)
        (fftSize fast n) (fftSize fast n) u v *
        rfft2 K (fftSize fast n) (fftSize fast n) u v) (fftSize fast n) (fftSize fast n)).scale t) n).at' i j
      = (∑ a ∈ Finset.range (2 * n), ∑ b ∈ Finset.range (2 * n), κ.at' (a % n) (b % n) *
          K.per (2 * n) (2 * n) ((i : ℤ) + n - a) ((j : ℤ) + n - b)) * t := by
  have hs : fftSize fast n = 2 * n := hf
  rw [fftMap_at fast n _ K t (by omega) hi hj]
  rw [hs, show (2 * n + 1) / 2 = n by omega]
  congr 1
  refine Finset.sum_congr rfl fun a ha => Finset.sum_congr rfl fun b hb => ?_
  rw [Finset.mem_range] at ha hb
  rw [Img.pad, if_pos ⟨by rw [hh]; exact ha, by rw [hw]; exact hb⟩, hh, hw]

theorem unpad_dims (fast : ℕ → ℕ) (f : ℕ → ℕ → ℂ) (t : ℝ) {n s : ℕ} (hs : n ≤ s) :
    (unpadFft fast ((irfft2 f s s).scale t) n).h = n ∧ (unpadFft fast ((irfft2 f s s).scale t) n).w = n := by
  have h : ∀ x : Img, x.h = s → x.w = s → (unpadFft fast x n).h = n ∧ (unpadFft fast x n).w = n := by
    intro x h1 h2
    simp only [unpadFft, Img.slice, Img.roll, h1, h2]
    omega
  exact h _ rfl rfl

/-- C62: with `tile` padding, if twice the size is a fast length, the lens is periodic: translating the
convergence map cyclically translates the maps cyclically. -/
theorem C62_tile_periodic {fast : ℕ → ℕ} (ps : ℝ) {n : ℕ} (hn : 1 ≤ n) (hf : fast (2 * n) = 2 * n) {κ : Img} (K : Img)
    (hh : κ.h = n) (hw : κ.w = n) (d0 d1 : ℕ) :
    ∃ m m', convMap fast κ (.spectrum (rfft2 K (fftSize fast n) (fftSize fast n))) ps n "tile" "fft" = .ok m ∧
      convMap fast (κ.cyc d0 d1) (.spectrum (rfft2 K (fftSize fast n) (fftSize fast n))) ps n "tile" "fft" = .ok m' ∧
      m.h = n ∧ m.w = n ∧ m'.Same (m.cyc d0 d1) := by
  have hs : fftSize fast n = 2 * n := hf
  have hdim := fun f t => unpad_dims fast f t (show n ≤ fftSize fast n by omega)
  refine ⟨_, _, convMap_fft fast _ ps n (padMap_tile κ n), convMap_fft fast _ ps n (padMap_tile _ n),
    (hdim _ _).1, (hdim _ _).2, ?_⟩
  have hc : ∀ (m m' : Img), m.h = n → m.w = n → m'.h = n → m'.w = n →
      (∀ i j, i < n → j < n → m'.at' i j = m.at' ((i + d0) % n) ((j + d1) % n)) → m'.Same (m.cyc d0 d1) := by
    intro m m' h1 h2 h3 h4 h
    refine ⟨by rw [h3]; exact h1.symm, by rw [h4]; exact h2.symm, fun i j hi hj => ?_⟩
    rw [h i j (by omega) (by omega)]
    unfold Img.cyc
    rw [h1, h2]
  refine hc _ _ (hdim _ _).1 (hdim _ _).2 (hdim _ _).1 (hdim _ _).2 fun i j hi' hj' => ?_
  rw [tileMap_at hf _ hh hw (Nat.mod_lt _ hn) (Nat.mod_lt _ hn),
    tileMap_at (κ := κ.cyc d0 d1) hf _ hh hw hi' hj']
  congr 1
  have hpos : (0 : ℤ) < n := by omega
  have key := tile_shift hn (fun a b => κ.at' (a % n).toNat (b % n).toNat) (K.per (2 * n) (2 * n))
    (by intro i j; simp) (by intro i j; simp) (by intro i j; simp [Img.per]) (by intro i j; simp [Img.per]) i j d0 d1
  have c1 : ∀ a : ℕ, ((a : ℤ) % n).toNat = a % n := by
    intro a; rw [← Int.natCast_mod, Int.toNat_natCast]
  have c2 : ∀ a d : ℕ, (((a : ℤ) + d) % n).toNat = (a % n + d) % n := by
    intro a d; rw [← Nat.cast_add, c1]; simp
  have c3 : ∀ b : ℕ, κ.h = n → κ.w = n → ∀ a, (κ.cyc d0 d1).at' (a % n) (b % n) = κ.at' ((a % n + d0) % n) ((b % n + d1) % n) := by
    intro b h1 h2 a
    unfold Img.cyc
    rw [h1, h2]
  simp only [c1, c2] at key
  simp only [c3 _ hh hw]
  rw [key]
  push_cast
  rfl

/-- Three by three maps; moving the bright pixel of `delta3` (below) is a special case. -/
example (K : Img) : ∃ m m',
    convMap id ⟨3, 3, fun i j => if i = 2 ∧ j = 2 then 1 else 0⟩ (.spectrum (rfft2 K (fftSize id 3) (fftSize id 3))) 1 3
      "tile" "fft" = .ok m ∧
    convMap id (Img.cyc ⟨3, 3, fun i j => if i = 2 ∧ j = 2 then 1 else 0⟩ 1 2)
      (.spectrum (rfft2 K (fftSize id 3) (fftSize id 3))) 1 3 "tile" "fft" = .ok m' ∧
    m'.at' 0 0 = m.at' 1 2 ∧ m'.at' 2 1 = m.at' 0 0 := by
  obtain ⟨m, m', h1, h2, h3, h4, h5⟩ := C62_tile_periodic (fast := id) 1 (n := 3) (by omega) rfl
    (κ := ⟨3, 3, fun i j => if i = 2 ∧ j = 2 then 1 else 0⟩) K rfl rfl 1 2
  have hm : m'.h = 3 := h5.1.trans h3
  have hm' : m'.w = 3 := h5.2.1.trans h4
  refine ⟨m, m', h1, h2, ?_, ?_⟩
  · rw [h5.2.2 0 0 (by omega) (by omega)]; simp [Img.cyc, h3, h4]
  · rw [h5.2.2 2 1 (by omega) (by omega)]; simp [Img.cyc, h3, h4]

/-- With `reflect` padding the `fft` maps are those of the mirror image: rows and columns behind the last one
repeat the map backwards, without the last row and column themselves, up to `2 n - 1` of each. -/
theorem C62_reflect {fast : ℕ → ℕ} (ps : ℝ) {n : ℕ} (hn : 2 ≤ n) (hf : 2 * n ≤ fast (2 * n)) {κ : Img} (K : Img)
    (hh : κ.h = n) (hw : κ.w = n) :
    ∃ m, convMap fast κ (.spectrum (rfft2 K (fast (2 * n)) (fast (2 * n)))) ps n "reflect" "fft" = .ok m ∧
      m.h = n ∧ m.w = n ∧ ∀ i j, i < n → j < n →
        m.at' i j = (∑ a ∈ Finset.range (2 * n - 1), ∑ b ∈ Finset.range (2 * n - 1),
          κ.at' (min a (2 * (n - 1) - a)) (min b (2 * (n - 1) - b)) *
            K.per (fast (2 * n)) (fast (2 * n)) ((i : ℤ) + ((fast (2 * n) + 1) / 2 : ℕ) - a)
              ((j : ℤ) + ((fast (2 * n) + 1) / 2 : ℕ) - b)) * (ps ^ 2 / Real.pi) := by
  have hs : fftSize fast n = fast (2 * n) := rfl
  have hidx : ∀ k, k < 2 * n - 1 → (if k < n then k else 2 * n - 2 - k) = min k (2 * (n - 1) - k) := by
    intro k hk
    split <;> omega
  have hpad : padMap κ n "reflect" = .ok ⟨κ.h + (n - 1), κ.w + (n - 1),
      fun i j => κ.at' (if i < n then i else 2 * n - 2 - i) (if j < n then j else 2 * n - 2 - j)⟩ := by
    simp [padMap, show n ≠ 1 by omega]
  have hdim := fun f t => unpad_dims fast f t (show n ≤ fftSize fast n by omega)
  refine ⟨_, convMap_fft fast _ ps n hpad, (hdim _ _).1, (hdim _ _).2, fun i j hi hj => ?_⟩
  rw [← hs, fftMap_at fast n _ K _ (by omega) hi hj]
  congr 1
  generalize fftSize fast n = s at *
  have hle : 2 * n - 1 ≤ s := by omega
  rw [sum_range_pad hle]
  · refine Finset.sum_congr rfl fun a ha => ?_
    rw [Finset.mem_range] at ha
    rw [sum_range_pad hle]
    · refine Finset.sum_congr rfl fun b hb => ?_
      rw [Finset.mem_range] at hb
      rw [Img.pad, if_pos ⟨by simp only [hh]; omega, by simp only [hw]; omega⟩]
      simp only [hidx a ha, hidx b hb]
    · intro b hb
      rw [Img.pad, if_neg (by simp only [hh, hw]; omega), zero_mul]
  · intro a ha
    refine Finset.sum_eq_zero fun b _ => ?_
    rw [Img.pad, if_neg (by simp only [hh, hw]; omega), zero_mul]

/-- Two by two: the map has three rows and columns, and the first row comes back as the third. -/
example (K : Img) : ∃ m,
    convMap id ⟨2, 2, fun i j => if i = 0 ∧ j = 1 then 1 else 0⟩ (.spectrum (rfft2 K 4 4)) 1 2 "reflect" "fft" = .ok m ∧
    m.at' 0 0 = (K.per 4 4 2 1 + K.per 4 4 0 1) * (1 ^ 2 / Real.pi) := by
  obtain ⟨m, h1, -, -, h4⟩ := C62_reflect (fast := id) 1 (n := 2) (by omega) le_rfl
    (κ := ⟨2, 2, fun i j => if i = 0 ∧ j = 1 then 1 else 0⟩) K rfl rfl
  refine ⟨m, h1, ?_⟩
  rw [h4 0 0 (by omega) (by omega)]
  simp [Finset.sum_range_succ]

/-- The two periodic paddings give the same maps. -/
def C62_statement : Prop :=
  ∀ (fast : ℕ → ℕ) (ps : ℝ) (n : ℕ) (window : ℝ) (l l' : PixLens),
    PixLens.new fast ps n n "fft" "tile" window = .ok l → PixLens.new fast ps n n "fft" "circular" window = .ok l' →
    ∀ x y x0 y0 κ scale, l.deflection fast x y x0 y0 κ scale = l'.deflection fast x y x0 y0 κ scale

/-- One bright pixel in the last corner. -/
def delta3 : Img := ⟨3, 3, fun i j => if i = 2 ∧ j = 2 then 1 else 0⟩

theorem delta3_maps (K : Img) (hh : K.h = 6) (hw : K.w = 6) :
    (∃ m, convMap id (delta3.scale 1) (.spectrum (rfft2 K (fftSize id 3) (fftSize id 3))) 1 3 "tile" "fft" = .ok m ∧
      m.h = 3 ∧ m.w = 3 ∧
      m.at' 0 0 = (K.at' 1 1 + K.at' 1 4 + (K.at' 4 1 + K.at' 4 4)) * (1 ^ 2 / Real.pi)) ∧
    (∃ m, convMap id (delta3.scale 1) (.spectrum (rfft2 K (fftSize id 3) (fftSize id 3))) 1 3 "circular" "fft" = .ok m ∧
      m.h = 3 ∧ m.w = 3 ∧ m.at' 0 0 = K.at' 1 1 * (1 ^ 2 / Real.pi)) := by
  have hs : fftSize id 3 = 6 := rfl
  have hcirc : padMap (delta3.scale 1) 3 "circular" = .ok ⟨5, 5, fun i j =>
      (delta3.scale 1).at' (if i < 3 then i else i - 3) (if j < 3 then j else j - 3)⟩ := by
    simp [padMap, delta3, Img.scale]
  refine ⟨⟨_, convMap_fft id _ 1 3 (padMap_tile _ 3), rfl, rfl, ?_⟩, ⟨_, convMap_fft id _ 1 3 hcirc, rfl, rfl, ?_⟩⟩
  · rw [fftMap_at id 3 _ K _ (by decide) (by omega) (by omega)]
    congr 1
    simp only [hs, Finset.sum_range_succ, Finset.sum_range_zero, Img.per, Img.pad, hh, hw, delta3, Img.scale]
    norm_num
    rfl
  · rw [fftMap_at id 3 _ K _ (by decide) (by omega) (by omega)]
    congr 1
    simp only [hs, Finset.sum_range_succ, Finset.sum_range_zero, Img.per, Img.pad, hh, hw, delta3, Img.scale]
    norm_num

/-- C62 fails: `circular` padding adds one row and column fewer than `tile`, so a bright last row has no
copy behind the map. -/
theorem C62_fails : ¬ C62_statement := by
  intro H
  have hnew : ∀ p : String, p ≠ "zero" → PixLens.new id 1 3 3 "fft" p (1 / 8) = .ok ⟨3, 1, p,
      (buildKernels 1 3).1.mul (buildWindow (1 / 8) 6), (buildKernels 1 3).2.1.mul (buildWindow (1 / 8) 6),
      (buildKernels 1 3).2.2,
      some (.spectrum (rfft2 ((buildKernels 1 3).1.mul (buildWindow (1 / 8) 6)) (fftSize id 3) (fftSize id 3))),
      some (.spectrum (rfft2 ((buildKernels 1 3).2.1.mul (buildWindow (1 / 8) 6)) (fftSize id 3) (fftSize id 3))),
      some (.spectrum (rfft2 (buildKernels 1 3).2.2 (fftSize id 3) (fftSize id 3))), some "fft"⟩ := by
    intro p hp
    simp [PixLens.new, PixLens.setMode, hp]
  have := H id 1 3 (1 / 8) _ _ (hnew "tile" (by decide)) (hnew "circular" (by decide)) (-1) (-1) 0 0 delta3 1
  obtain ⟨⟨m1, a1, a2, a3, a4⟩, ⟨m3, c1, c2, c3, c4⟩⟩ :=
    delta3_maps ((buildKernels 1 3).1.mul (buildWindow (1 / 8) 6)) rfl rfl
  obtain ⟨⟨m2, b1, b2, b3, b4⟩, ⟨m4, d1, d2, d3, d4⟩⟩ :=
    delta3_maps ((buildKernels 1 3).2.1.mul (buildWindow (1 / 8) 6)) rfl rfl
  have e : (-1 - 0 : ℝ) / ((3 : ℕ) * 1 / 2) = centre 3 0 := by unfold centre; norm_num
  have read : ∀ m : Img, m.h = 3 → m.w = 3 → readMap m 0 0 ((3 : ℕ) * 1) (-1) (-1) = .ok (m.at' 0 0) := by
    intro m h1 h2
    exact readMap_centre m (by omega) (by omega) (by omega) (by omega) (by rw [h2]; exact e) (by rw [h1]; exact e)
  simp only [PixLens.deflection, deflectionPixConv, a1, b1, c1, d1, bind, Except.bind, read m1 a2 a3, read m2 b2 b3,
    read m3 c2 c3, read m4 d2 d3, pure, Except.pure, Except.ok.injEq, Prod.mk.injEq] at this
  have h := this.1
  rw [a4, c4] at h
  simp only [windowed_at] at h
  have w : ∀ i j : ℕ, (i = 1 ∨ i = 4) → (j = 1 ∨ j = 4) → (buildWindow (1 / 8) 6).at' i j = 1 := by
    rintro i j (rfl | rfl) (rfl | rfl) <;>
      exact window_one (by omega) (by norm_num) (by norm_num) (by omega) (by omega) (by norm_num)
  rw [w 1 1 (by omega) (by omega), w 1 4 (by omega) (by omega), w 4 1 (by omega) (by omega),
    w 4 4 (by omega) (by omega)] at h
  have k : ∀ i j : ℕ, i < 6 → j < 6 → (buildKernels 1 3).1.at' i j = kerPos 1 3 j / (kerPos 1 3 j ^ 2 + kerPos 1 3 i ^ 2) :=
    fun i j hi hj => (kernels_at 1 3 hi hj).1
  rw [k 1 1 (by omega) (by omega), k 1 4 (by omega) (by omega), k 4 1 (by omega) (by omega),
    k 4 4 (by omega) (by omega)] at h
  have hpi : 0 < (Real.pi)⁻¹ := inv_pos.2 Real.pi_pos
  simp only [kerPos] at h
  norm_num at h

end Caustics

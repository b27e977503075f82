import Verif.Spec.PixConv
import Verif.Lemmas.LensSource
import Verif.Props.Grid
import Verif.Props.Interp2d
import Mathlib.Tactic.LinearCombination

/-! Lemmas about the convolution with the pixelated kernels. -/

namespace Caustics

/-- The coordinates the kernels are tabulated at: half-integer multiples of the pixel size. -/
noncomputable def kerPos (ps : ℝ) (n k : ℕ) : ℝ := ((k : ℝ) - n + 1 / 2) * ps

theorem mesh_at (ps : ℝ) (n : ℕ) {i j : ℕ} (hi : i < 2 * n) (hj : j < 2 * n) :
    ((meshgrid ps (2 * n) none).1.getD i []).getD j 0 = kerPos ps n j ∧
      ((meshgrid ps (2 * n) none).2.getD i []).getD j 0 = kerPos ps n i := by
  obtain ⟨-, -, -, -, h⟩ := C06_entries (K := ℝ) ps (2 * n) none
  obtain ⟨h1, h2⟩ := h i j hi hj
  have conv : ∀ (L : List (List ℝ)) (v : ℝ), L[i]?.bind (·[j]?) = some v → (L.getD i []).getD j 0 = v := by
    intro L v hv
    rw [List.getD_eq_getElem?_getD, List.getD_eq_getElem?_getD]
    cases hL : L[i]? with
    | none => rw [hL] at hv; cases hv
    | some r => rw [hL] at hv; simp only [Option.bind_some] at hv; simp [hv]
  refine ⟨(conv _ _ h1).trans ?_, (conv _ _ h2).trans ?_⟩ <;>
  · simp only [Option.getD_none, kerPos]
    push_cast
    ring

theorem safeDivide_eq (a b : ℝ) : safeDivide a b = a / b := by
  unfold safeDivide
  split
  · rfl
  · rename_i h
    rw [not_not] at h
    simp [h]

theorem safeLog_eq (a : ℝ) : safeLog a = Real.log a := by
  unfold safeLog
  split
  · rfl
  · rename_i h
    rw [not_not] at h
    simp [h]

theorem kernels_dims (ps : ℝ) (n : ℕ) : (buildKernels ps n).1.h = 2 * n ∧ (buildKernels ps n).1.w = 2 * n ∧
    (buildKernels ps n).2.1.h = 2 * n ∧ (buildKernels ps n).2.1.w = 2 * n ∧
    (buildKernels ps n).2.2.h = 2 * n ∧ (buildKernels ps n).2.2.w = 2 * n := ⟨rfl, rfl, rfl, rfl, rfl, rfl⟩

theorem kernels_at (ps : ℝ) (n : ℕ) {i j : ℕ} (hi : i < 2 * n) (hj : j < 2 * n) :
    (buildKernels ps n).1.at' i j = kerPos ps n j / (kerPos ps n j ^ 2 + kerPos ps n i ^ 2) ∧
      (buildKernels ps n).2.1.at' i j = kerPos ps n i / (kerPos ps n j ^ 2 + kerPos ps n i ^ 2) ∧
      (buildKernels ps n).2.2.at' i j = Real.log (Real.sqrt (kerPos ps n j ^ 2 + kerPos ps n i ^ 2)) := by
  obtain ⟨h1, h2⟩ := mesh_at ps n hi hj
  unfold buildKernels
  simp only [h1, h2, safeDivide_eq, safeLog_eq]
  exact ⟨trivial, trivial, trivial⟩

/-- The map of the `fft` mode as a cyclic convolution. -/
theorem fftMap_at (fast : ℕ → ℕ) (n : ℕ) (y K : Img) (t : ℝ) (hs : n ≤ fftSize fast n) {i j : ℕ} (hi : i < n) (hj : j < n) :
    (unpadFft fast ((irfft2 (fun u v => rfft2 y (fftSize fast n) (fftSize fast n) u v *
        rfft2 K (fftSize fast n) (fftSize fast n) u v) (fftSize fast n) (fftSize fast n)).scale t) n).at' i j
      = (∑ a ∈ Finset.range (fftSize fast n), ∑ b ∈ Finset.range (fftSize fast n), y.pad a b *
          K.per (fftSize fast n) (fftSize fast n) ((i : ℤ) + ((fftSize fast n + 1) / 2 : ℕ) - a)
            ((j : ℤ) + ((fftSize fast n + 1) / 2 : ℕ) - b)) * t := by
  unfold unpadFft
  generalize fftSize fast n = s at *
  have hs0 : s ≠ 0 := by omega
  have hdiv : -(s : ℤ) / 2 = -(((s + 1) / 2 : ℕ) : ℤ) := by omega
  generalize hc : (s + 1) / 2 = c at *
  have hsl : ∀ z : Img, (z.slice 0 n 0 n).at' i j = z.at' i j := by
    intro z; simp [Img.slice]
  rw [hsl, Img.roll_at, hdiv]
  have hdim : ((irfft2 (fun u v => rfft2 y s s u v * rfft2 K s s u v) s s).scale t).h = s ∧
      ((irfft2 (fun u v => rfft2 y s s u v * rfft2 K s s u v) s s).scale t).w = s := ⟨rfl, rfl⟩
  rw [hdim.1, hdim.2]
  have hp : (0 : ℤ) < s := by omega
  have hlt : ∀ k : ℤ, (k % (s : ℤ)).toNat < s := by
    intro k
    have h1 := Int.emod_nonneg k hp.ne'
    have h2 := Int.emod_lt_of_pos k hp
    omega
  have hcast : ∀ k : ℤ, (((k % (s : ℤ)).toNat : ℕ) : ℤ) = k % s := by
    intro k
    exact Int.toNat_of_nonneg (Int.emod_nonneg k hp.ne')
  have hscale : ∀ (z : Img) (p q : ℕ), (z.scale t).at' p q = z.at' p q * t := fun _ _ _ => rfl
  rw [hscale]
  congr 1
  have hcomm : (fun u v => rfft2 y s s u v * rfft2 K s s u v) = fun u v => rfft2 K s s u v * rfft2 y s s u v := by
    funext u v; ring
  rw [hcomm, irfft2_mul_rfft2 hs0 hs0 _ _ (hlt _) (hlt _)]
  refine Finset.sum_congr rfl fun a _ => Finset.sum_congr rfl fun b _ => ?_
  congr 1
  unfold Img.per
  rw [hcast, hcast, Int.emod_sub_emod, Int.emod_sub_emod, sub_neg_eq_add, sub_neg_eq_add]

/-- The same for a zero padded map: the plain convolution with the kernel. -/
theorem fftMap_zero (fast : ℕ → ℕ) (n : ℕ) (κ K : Img) (t : ℝ) (hh : κ.h = n) (hw : κ.w = n)
    (hs : 2 * n ≤ fftSize fast n) {i j : ℕ} (hi : i < n) (hj : j < n) :
    (unpadFft fast ((irfft2 (fun u v => rfft2 κ (fftSize fast n) (fftSize fast n) u v *
        rfft2 K (fftSize fast n) (fftSize fast n) u v) (fftSize fast n) (fftSize fast n)).scale t) n).at' i j
      = (∑ a ∈ Finset.range n, ∑ b ∈ Finset.range n, κ.at' a b *
          K.pad (i + (fftSize fast n + 1) / 2 - a) (j + (fftSize fast n + 1) / 2 - b)) * t := by
  rw [fftMap_at fast n κ K t (by omega) hi hj]
  generalize fftSize fast n = s at *
  congr 1
  rw [sum_range_pad (k := n) (by omega)]
  · refine Finset.sum_congr rfl fun a ha => ?_
    rw [Finset.mem_range] at ha
    rw [sum_range_pad (k := n) (by omega)]
    · refine Finset.sum_congr rfl fun b hb => ?_
      rw [Finset.mem_range] at hb
      have e1 : ((i : ℤ) + ((s + 1) / 2 : ℕ) - a) % s = ((i + (s + 1) / 2 - a : ℕ) : ℤ) := by
        rw [Int.emod_eq_of_lt (by omega) (by omega)]; omega
      have e2 : ((j : ℤ) + ((s + 1) / 2 : ℕ) - b) % s = ((j + (s + 1) / 2 - b : ℕ) : ℤ) := by
        rw [Int.emod_eq_of_lt (by omega) (by omega)]; omega
      rw [Img.per, e1, e2, Int.toNat_natCast, Int.toNat_natCast]
      congr 1
      rw [Img.pad, if_pos ⟨by omega, by omega⟩]
    · intro b hb
      rw [Img.pad, if_neg (by omega), zero_mul]
  · intro a ha
    refine Finset.sum_eq_zero fun b _ => ?_
    rw [Img.pad, if_neg (by omega), zero_mul]

/-- The map of the `conv2d` mode. -/
theorem convMap_at (κ K : Img) {n : ℕ} (hh : κ.h = n) (hw : κ.w = n) (i j : ℕ) :
    (conv2dSame K κ.flip).at' i j = ∑ a ∈ Finset.range n, ∑ b ∈ Finset.range n, κ.at' a b *
      K.padZ ((i : ℤ) + (n / 2 : ℕ) - a) ((j : ℤ) + (n / 2 : ℕ) - b) := by
  unfold conv2dSame Img.flip
  simp only [hh, hw]
  rw [← Finset.sum_range_reflect]
  refine Finset.sum_congr rfl fun a ha => ?_
  rw [Finset.mem_range] at ha
  rw [← Finset.sum_range_reflect]
  refine Finset.sum_congr rfl fun b hb => ?_
  rw [Finset.mem_range] at hb
  have e1 : n - 1 - (n - 1 - a) = a := by omega
  have e2 : n - 1 - (n - 1 - b) = b := by omega
  have e3 : ((i : ℤ) + (n - 1 - a : ℕ) - ((n - 1) / 2 : ℕ)) = (i : ℤ) + (n / 2 : ℕ) - a := by omega
  have e4 : ((j : ℤ) + (n - 1 - b : ℕ) - ((n - 1) / 2 : ℕ)) = (j : ℤ) + (n / 2 : ℕ) - b := by omega
  rw [e1, e2, e3, e4]

theorem padZ_pad (K : Img) (i j : ℕ) : K.padZ i j = K.pad i j := by
  simp [Img.padZ]

/-- Reading a map with at least two pixels per axis at a pixel centre. -/
theorem readMap_centre (m : Img) {x0 y0 fov x y : ℝ} {i j : ℕ} (hh : 2 ≤ m.h) (hw : 2 ≤ m.w) (hi : i < m.h) (hj : j < m.w)
    (hx : (x - x0) / (fov / 2) = centre m.w j) (hy : (y - y0) / (fov / 2) = centre m.h i) :
    readMap m x0 y0 fov x y = .ok (m.at' i j) := by
  unfold readMap
  rw [hx, hy]
  exact C09_centre hh hw m.toFin ⟨i, hi⟩ ⟨j, hj⟩ "linear" "zeros" (Or.inr rfl) (Or.inr (Or.inr rfl))

/-- Pixel centres in the units of `interp2d`. -/
theorem pixPos_centre {ps : ℝ} {n : ℕ} (hps : ps ≠ 0) (hn : n ≠ 0) (k : ℕ) :
    pixPos ps n k / (n * ps / 2) = centre n k := by
  have : (n : ℝ) ≠ 0 := Nat.cast_ne_zero.2 hn
  unfold pixPos centre
  field_simp
  ring

end Caustics

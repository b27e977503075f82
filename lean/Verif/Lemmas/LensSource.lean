import Verif.Model.LensSource
import Verif.Lemmas.FFT
import Mathlib.Algebra.BigOperators.Field

/-! Lemmas about the simulator: what the convolutions compute away from the border. -/

namespace Caustics

/-- Direct linear convolution with the normalised PSF, centred on `(k0 / 2, k1 / 2)`. -/
noncomputable def directConv (psf mu : Img) (i j : ℕ) : ℝ :=
  (∑ m ∈ Finset.range psf.h, ∑ n ∈ Finset.range psf.w,
    psf.at' m n * mu.at' (i + psf.h / 2 - m) (j + psf.w / 2 - n)) / psf.sum

theorem sum_range_pad {k s : ℕ} (hks : k ≤ s) (f : ℕ → ℝ) (hf : ∀ a, k ≤ a → f a = 0) :
    ∑ a ∈ Finset.range s, f a = ∑ a ∈ Finset.range k, f a := by
  symm
  refine Finset.sum_subset (Finset.range_mono hks) fun a _ ha => hf a ?_
  simpa using ha

theorem Img.roll_at (x : Img) (d0 d1 : ℤ) (i j : ℕ) :
    (x.roll d0 d1).at' i j = x.at' ((i - d0) % x.h).toNat ((j - d1) % x.w).toNat := rfl

theorem irfft2_h (X : ℕ → ℕ → ℂ) (s0 s1 : ℕ) : (irfft2 X s0 s1).h = s0 := rfl

theorem irfft2_w (X : ℕ → ℕ → ℂ) (s0 s1 : ℕ) : (irfft2 X s0 s1).w = s1 := rfl

theorem conv2dSame_direct (psf mu : Img) {i j : ℕ} (hi : psf.h / 2 ≤ i) (hj : psf.w / 2 ≤ j)
    (hi' : i + psf.h / 2 < mu.h) (hj' : j + psf.w / 2 < mu.w) :
    (conv2dSame mu (psf.flip.div psf.sum)).at' i j = directConv psf mu i j := by
  unfold conv2dSame directConv Img.div Img.flip
  simp only
  rw [← Finset.sum_range_reflect, Finset.sum_div]
  refine Finset.sum_congr rfl fun m hm => ?_
  rw [Finset.mem_range] at hm
  rw [← Finset.sum_range_reflect, Finset.sum_div]
  refine Finset.sum_congr rfl fun n hn => ?_
  rw [Finset.mem_range] at hn
  have e1 : psf.h - 1 - (psf.h - 1 - m) = m := by omega
  have e2 : psf.w - 1 - (psf.w - 1 - n) = n := by omega
  have e3 : ((i : ℤ) + (psf.h - 1 - m : ℕ) - ((psf.h - 1) / 2 : ℕ)) = ((i + psf.h / 2 - m : ℕ) : ℤ) := by omega
  have e4 : ((j : ℤ) + (psf.w - 1 - n : ℕ) - ((psf.w - 1) / 2 : ℕ)) = ((j + psf.w / 2 - n : ℕ) : ℤ) := by omega
  rw [e1, e2, e3, e4, Img.padZ, if_pos ⟨by omega, by omega⟩, Int.toNat_natCast, Int.toNat_natCast, Img.pad,
    if_pos ⟨by omega, by omega⟩]
  ring

theorem fft_direct (psf mu : Img) {s0 s1 : ℕ} (hs0 : mu.h ≤ s0) (hs1 : mu.w ≤ s1) {i j : ℕ}
    (hi : psf.h / 2 ≤ i) (hj : psf.w / 2 ≤ j) (hi' : i + psf.h / 2 < mu.h) (hj' : j + psf.w / 2 < mu.w) :
    ((irfft2 (fun u v => rfft2 mu s0 s1 u v * rfft2 (psf.div psf.sum) s0 s1 u v) s0 s1).roll
      (-(psf.h / 2 : ℕ)) (-(psf.w / 2 : ℕ))).at' i j = directConv psf mu i j := by
  have a0 : (((i : ℤ) - -((psf.h / 2 : ℕ) : ℤ)) % (s0 : ℤ)).toNat = i + psf.h / 2 := by
    rw [Int.emod_eq_of_lt (by omega) (by omega)]; omega
  have a1 : (((j : ℤ) - -((psf.w / 2 : ℕ) : ℤ)) % (s1 : ℤ)).toNat = j + psf.w / 2 := by
    rw [Int.emod_eq_of_lt (by omega) (by omega)]; omega
  rw [Img.roll_at, irfft2_h, irfft2_w, a0, a1]
  rw [irfft2_mul_rfft2 (by omega) (by omega) _ _ (by omega) (by omega)]
  unfold directConv
  rw [sum_range_pad (k := psf.h) (by omega), Finset.sum_div]
  · refine Finset.sum_congr rfl fun m hm => ?_
    rw [Finset.mem_range] at hm
    rw [sum_range_pad (k := psf.w) (by omega), Finset.sum_div]
    · refine Finset.sum_congr rfl fun n hn => ?_
      rw [Finset.mem_range] at hn
      have e1 : (((i + psf.h / 2 : ℕ) : ℤ) - (m : ℤ)) % (s0 : ℤ) = ((i + psf.h / 2 - m : ℕ) : ℤ) := by
        rw [Int.emod_eq_of_lt (by omega) (by omega)]; omega
      have e2 : (((j + psf.w / 2 : ℕ) : ℤ) - (n : ℤ)) % (s1 : ℤ) = ((j + psf.w / 2 - n : ℕ) : ℤ) := by
        rw [Int.emod_eq_of_lt (by omega) (by omega)]; omega
      rw [Img.per, e1, e2, Int.toNat_natCast, Int.toNat_natCast, Img.pad, Img.pad,
        if_pos ⟨hm, hn⟩, if_pos ⟨by omega, by omega⟩, Img.div]
      ring
    · intro b hb
      rw [Img.pad, if_neg (by simp only [Img.div]; omega), zero_mul]
  · intro a ha
    refine Finset.sum_eq_zero fun b _ => ?_
    rw [Img.pad, if_neg (by simp only [Img.div]; omega), zero_mul]

/-- Building only reads the settings. -/
theorem build_congr {lib : SimLib} {x y z : Sim} (h : x.cfg = z.cfg) (hb : Sim.build lib x = (y, none)) :
    Sim.build lib z = (y, none) := by
  obtain ⟨xc, xg⟩ := x
  obtain ⟨zc, zg⟩ := z
  simp only at h
  subst h
  unfold Sim.build at hb ⊢
  simp only at hb ⊢
  split at hb
  · split at hb
    · simp at hb
    · rename_i h0
      rw [if_neg h0]
      simpa using hb
  · simp at hb

theorem build_cfg {lib : SimLib} (x : Sim) : (Sim.build lib x).1.cfg = x.cfg := by
  unfold Sim.build
  split
  · split <;> rfl
  · rfl

theorem build_fresh {lib : SimLib} {x y : Sim} (hb : Sim.build lib x = (y, none)) :
    Sim.new lib y.cfg = .ok y := by
  have hc : y.cfg = x.cfg := by
    have := build_cfg (lib := lib) x
    rw [hb] at this; exact this
  unfold Sim.new
  rw [build_congr (x := x) (z := ⟨y.cfg, ⟨(0, 0), (0, 0), [], [], (0, 0)⟩⟩) hc.symm hb]

/-- What a constructed simulator looks like. -/
theorem new_ok {lib : SimLib} {cfg : SimCfg} {x : Sim} (h : Sim.new lib cfg = .ok x) :
    ∃ k0 k1 l, cfg.psfShape = k0 :: k1 :: l ∧ x.cfg = cfg ∧ cfg.upsample ≠ 0 ∧ x.g.psfPad = (k1 / 2, k0 / 2) ∧
      x.g.nPix = (cfg.pixelsX * cfg.upsample + k1 / 2 * 2, cfg.pixelsY * cfg.upsample + k0 / 2 * 2) ∧
      x.g.s = (lib.fast x.g.nPix.1, lib.fast x.g.nPix.2) ∧
      x.g.weights = simWeights lib cfg.quadLevel (cfg.pixelscale / cfg.upsample) ∧
      x.g.grid = List.zipWith (List.zipWith (simSub lib cfg.quadLevel (cfg.pixelscale / cfg.upsample)))
        (meshgrid (cfg.pixelscale / cfg.upsample) x.g.nPix.1 (some x.g.nPix.2)).1
        (meshgrid (cfg.pixelscale / cfg.upsample) x.g.nPix.1 (some x.g.nPix.2)).2 := by
  unfold Sim.new Sim.build at h
  simp only at h
  split at h
  · rename_i y heq
    split at heq
    · rename_i k0 k1 l hs
      split at heq
      · simp at heq
      · rename_i h0
        simp only [Prod.mk.injEq, and_true] at heq
        simp only [Except.ok.injEq] at h
        subst h
        subst heq
        exact ⟨k0, k1, l, hs, rfl, h0, rfl, rfl, rfl, rfl, rfl⟩
    · simp at heq
  · simp at h

end Caustics

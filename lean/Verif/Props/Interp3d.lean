import Verif.Lemmas.Interp2d
import Mathlib.Data.Rat.Floor

/-! C10: `interp3d`. -/

namespace Caustics

variable {K : Type*} [Field K] [LinearOrder K] [FloorRing K] [IsStrictOrderedRing K]

/-- C10: no query raises, for every non-empty cube, both methods and both padding modes. -/
theorem C10_total {d h w : ℕ} (hd : 1 ≤ d) (hh : 1 ≤ h) (hw : 1 ≤ w)
    (cu : Fin d → Fin h → Fin w → K) (x y t : K)
    (method padding : String) (hm : method = "nearest" ∨ method = "linear") (hp : Pad3 padding) :
    ∃ r, interp3d cu x y t method padding = .ok r := by
  rcases hm with rfl | rfl
  · exact ⟨_, interp3d_nearest hd hh hw cu x y t padding hp⟩
  · exact ⟨_, interp3d_linear hd hh hw cu x y t padding hp⟩

omit [IsStrictOrderedRing K] in
/-- C10: an unknown padding mode ("clamp" included) or method raises `ValueError`. -/
theorem C10_errors {d h w : ℕ} (cu : Fin d → Fin h → Fin w → K) (x y t : K)
    (method padding : String) :
    (¬ Pad3 padding → interp3d cu x y t method padding = .error .valueError) ∧
    (method ≠ "nearest" → method ≠ "linear" →
      interp3d cu x y t method padding = .error .valueError) := by
  unfold Pad3 interp3d
  constructor
  · intro h
    rw [if_pos (by tauto)]
  · intro h1 h2
    simp only [h1, h2, if_false]
    split_ifs <;> rfl

/-- C10: a voxel centre returns that voxel: `x` selects the last axis, `y` the middle one, `t` the
first. -/
theorem C10_centre {d h w : ℕ} (hd : 2 ≤ d) (hh : 2 ≤ h) (hw : 2 ≤ w)
    (cu : Fin d → Fin h → Fin w → K) (k : Fin d) (i : Fin h) (j : Fin w) (method padding : String)
    (hm : method = "nearest" ∨ method = "linear") (hp : Pad3 padding) :
    interp3d cu (centre w j) (centre h i) (centre d k) method padding = .ok (cu k i j) := by
  obtain ⟨fx0, fx1⟩ := centre_in_frame (K := K) j.isLt
  obtain ⟨fy0, fy1⟩ := centre_in_frame (K := K) i.isLt
  obtain ⟨ft0, ft1⟩ := centre_in_frame (K := K) k.isLt
  have hz : ¬ (padding = "zeros" ∧ (offFrame (centre h i : K) || offFrame (centre w j : K)
      || offFrame (centre d k : K)) = true) := by
    rw [onFrame fx0 fx1, onFrame fy0 fy1, onFrame ft0 ft1]; simp
  rcases hm with rfl | rfl
  · rw [interp3d_nearest (by omega) (by omega) (by omega) cu _ _ _ padding hp, if_neg hz,
      toPix_centre (by omega), toPix_centre (by omega), toPix_centre (by omega), round_nat,
      round_nat, round_nat]
    have e1 : clamp ((i : ℕ) : ℤ) 0 ((h : ℤ) - 1) = ((i : ℕ) : ℤ) := by
      have := i.isLt; unfold clamp; omega
    have e2 : clamp ((j : ℕ) : ℤ) 0 ((w : ℤ) - 1) = ((j : ℕ) : ℤ) := by
      have := j.isLt; unfold clamp; omega
    have e3 : clamp ((k : ℕ) : ℤ) 0 ((d : ℤ) - 1) = ((k : ℕ) : ℤ) := by
      have := k.isLt; unfold clamp; omega
    rw [e1, e2, e3, wrap_nat _ _ _ j.isLt, wrap_nat _ _ _ i.isLt, wrap_nat _ _ _ k.isLt]
  · rw [interp3d_linear (by omega) (by omega) (by omega) cu _ _ _ padding hp, if_neg hz,
      toPix_centre (by omega), toPix_centre (by omega), toPix_centre (by omega)]
    have key : ∀ (n : ℕ) (_ : 2 ≤ n) (k : ℕ) (_ : k < n) (f : ℤ → K), lin n (k : K) f = f k := by
      intro n hn k hk f
      by_cases hlast : k + 1 < n
      · rw [lin_cell (j := (k : ℤ)) (by omega) (by omega) (by simp) (by simp)]
        push_cast; ring
      · rw [lin_cell (j := (k : ℤ) - 1) (by omega) (by omega) (by simp) (by simp)]
        push_cast
        rw [sub_add_cancel]
        simp
    rw [key d hd k k.isLt, key h hh i i.isLt, key w hw j j.isLt, wrap_nat _ _ _ j.isLt,
      wrap_nat _ _ _ i.isLt, wrap_nat _ _ _ k.isLt]

private theorem cell_frame (n k : ℕ) (z : K) (hk : k + 1 < n) (h0 : (k : K) ≤ pixCoord n z)
    (h1 : pixCoord n z ≤ (k : K) + 1) : -1 ≤ z ∧ z ≤ 1 := by
  have hn : (0 : K) < n := by exact_mod_cast (by omega : 0 < n)
  have hk' : (k : K) + 2 ≤ n := by exact_mod_cast (by omega : k + 2 ≤ n)
  have hk0 : (0 : K) ≤ k := by positivity
  unfold pixCoord at h0 h1
  constructor
  · by_contra hc
    have : (n : K) * (z + 1) < 0 := mul_neg_of_pos_of_neg hn (by linarith)
    linarith
  · by_contra hc
    have : (n : K) * 2 < (n : K) * (z + 1) := mul_lt_mul_of_pos_left (by linarith) hn
    linarith

/-- C10: between eight neighbouring voxel centres the linear method interpolates linearly in `t`
between the bilinear interpolations of the two frames. -/
theorem C10_cell {d h w : ℕ} (cu : Fin d → Fin h → Fin w → K) (x y t : K) (padding : String)
    (hp : Pad3 padding) (k i j : ℕ) (hk : k + 1 < d) (hi : i + 1 < h) (hj : j + 1 < w)
    (hx0 : (j : K) ≤ pixCoord w x) (hx1 : pixCoord w x ≤ (j : K) + 1)
    (hy0 : (i : K) ≤ pixCoord h y) (hy1 : pixCoord h y ≤ (i : K) + 1)
    (ht0 : (k : K) ≤ pixCoord d t) (ht1 : pixCoord d t ≤ (k : K) + 1) :
    let frame : Fin d → K := fun n => bilinear
      (cu n ⟨i, by omega⟩ ⟨j, by omega⟩) (cu n ⟨i, by omega⟩ ⟨j + 1, hj⟩)
      (cu n ⟨i + 1, hi⟩ ⟨j, by omega⟩) (cu n ⟨i + 1, hi⟩ ⟨j + 1, hj⟩)
      (pixCoord w x - j) (pixCoord h y - i)
    interp3d cu x y t "linear" padding = .ok
      ((1 - (pixCoord d t - k)) * frame ⟨k, by omega⟩ + (pixCoord d t - k) * frame ⟨k + 1, hk⟩) := by
  intro frame
  obtain ⟨fx0, fx1⟩ := cell_frame w j x hj hx0 hx1
  obtain ⟨fy0, fy1⟩ := cell_frame h i y hi hy0 hy1
  obtain ⟨ft0, ft1⟩ := cell_frame d k t hk ht0 ht1
  rw [interp3d_linear (by omega) (by omega) (by omega) cu _ _ _ padding hp,
    if_neg (by rw [onFrame fx0 fx1, onFrame fy0 fy1, onFrame ft0 ft1]; simp),
    toPix_eq, toPix_eq, toPix_eq]
  have hl : ∀ (n m : ℕ) (p : K), m + 1 < n → (m : K) ≤ p → p ≤ (m : K) + 1 → ∀ f : ℤ → K,
      lin n p f = f m * ((m : K) + 1 - p) + f ((m + 1 : ℕ) : ℤ) * (p - m) := by
    intro n m p hm h0 h1 f
    have := lin_cell (n := n) (p := p) (j := (m : ℤ)) (by omega) (by omega)
      (by simpa using h0) (by simpa using h1) f
    rw [this]; push_cast; rfl
  simp only [hl w j _ hj hx0 hx1, hl h i _ hi hy0 hy1, hl d k _ hk ht0 ht1,
    wrap_nat _ _ k (show k < d by omega), wrap_nat _ _ (k + 1) hk,
    wrap_nat _ _ i (show i < h by omega), wrap_nat _ _ (i + 1) hi,
    wrap_nat _ _ j (show j < w by omega), wrap_nat _ _ (j + 1) hj, frame]
  unfold bilinear
  congr 1
  ring

private theorem hull_frame (n : ℕ) (z : K) (hn : 2 ≤ n) (h0 : 0 ≤ pixCoord n z)
    (h1 : pixCoord n z ≤ (n : K) - 1) : -1 ≤ z ∧ z ≤ 1 := by
  have hn : (0 : K) < n := by exact_mod_cast (by omega : 0 < n)
  unfold pixCoord at h0 h1
  constructor
  · by_contra hc
    have : (n : K) * (z + 1) < 0 := mul_neg_of_pos_of_neg hn (by linarith)
    linarith
  · by_contra hc
    have : (n : K) * 2 < (n : K) * (z + 1) := mul_lt_mul_of_pos_left (by linarith) hn
    linarith

/-- C10: between the outermost voxel centres the value lies between any bounds on the voxels. -/
theorem C10_bounded {d h w : ℕ} (hd : 2 ≤ d) (hh : 2 ≤ h) (hw : 2 ≤ w)
    (cu : Fin d → Fin h → Fin w → K) (x y t lo hi : K) (padding : String) (hp : Pad3 padding)
    (hx0 : 0 ≤ pixCoord w x) (hx1 : pixCoord w x ≤ (w : K) - 1)
    (hy0 : 0 ≤ pixCoord h y) (hy1 : pixCoord h y ≤ (h : K) - 1)
    (ht0 : 0 ≤ pixCoord d t) (ht1 : pixCoord d t ≤ (d : K) - 1)
    (hb : ∀ k i j, lo ≤ cu k i j ∧ cu k i j ≤ hi) :
    ∃ r, interp3d cu x y t "linear" padding = .ok r ∧ lo ≤ r ∧ r ≤ hi := by
  obtain ⟨fx0, fx1⟩ := hull_frame w x hw hx0 hx1
  obtain ⟨fy0, fy1⟩ := hull_frame h y hh hy0 hy1
  obtain ⟨ft0, ft1⟩ := hull_frame d t hd ht0 ht1
  refine ⟨_, by
    rw [interp3d_linear (by omega) (by omega) (by omega) cu _ _ _ padding hp,
      if_neg (by rw [onFrame fx0 fx1, onFrame fy0 fy1, onFrame ft0 ft1]; simp),
      toPix_eq, toPix_eq, toPix_eq], ?_⟩
  apply lin_between hd ht0 ht1
  intro k hk0 hk1
  apply lin_between hh hy0 hy1
  intro i hi0 hi1
  apply lin_between hw hx0 hx1
  intro j hj0 hj1
  rw [wrap_nonneg _ _ hj0 hj1, wrap_nonneg _ _ hi0 hi1, wrap_nonneg _ _ hk0 hk1]
  exact hb _ _ _

omit [IsStrictOrderedRing K] in
/-- C10: with "zeros" padding every query outside the frame gives zero. -/
theorem C10_zeros {d h w : ℕ} (hd : 1 ≤ d) (hh : 1 ≤ h) (hw : 1 ≤ w)
    (cu : Fin d → Fin h → Fin w → K) (x y t : K)
    (method : String) (hm : method = "nearest" ∨ method = "linear")
    (hout : x < -1 ∨ 1 < x ∨ y < -1 ∨ 1 < y ∨ t < -1 ∨ 1 < t) :
    interp3d cu x y t method "zeros" = .ok 0 := by
  have hz : ("zeros" = "zeros" ∧ (offFrame y || offFrame x || offFrame t) = true) := by
    refine ⟨rfl, ?_⟩
    simp only [offFrame, Bool.or_eq_true, decide_eq_true_eq, gt_iff_lt]
    tauto
  rcases hm with rfl | rfl
  · rw [interp3d_nearest hd hh hw cu x y t "zeros" (by simp), if_pos hz]
  · rw [interp3d_linear hd hh hw cu x y t "zeros" (by simp), if_pos hz]

/-- C10: a constant cube is reproduced everywhere in the frame (everywhere at all with
"extrapolate"). -/
theorem C10_constant {d h w : ℕ} (hd : 2 ≤ d) (hh : 2 ≤ h) (hw : 2 ≤ w) (c x y t : K)
    (method padding : String) (hm : method = "nearest" ∨ method = "linear") (hp : Pad3 padding)
    (hin : padding ≠ "extrapolate" → (-1 ≤ x ∧ x ≤ 1) ∧ (-1 ≤ y ∧ y ≤ 1) ∧ (-1 ≤ t ∧ t ≤ 1)) :
    interp3d (d := d) (h := h) (w := w) (fun _ _ _ => c) x y t method padding = .ok c := by
  have hz : ¬ (padding = "zeros" ∧ (offFrame y || offFrame x || offFrame t) = true) := by
    rintro ⟨hpz, ho⟩
    obtain ⟨hx, hy, ht⟩ := hin (by rw [hpz]; decide)
    rw [onFrame hx.1 hx.2, onFrame hy.1 hy.2, onFrame ht.1 ht.2] at ho
    simp at ho
  have hv : ∀ (k i j : ℤ), 0 ≤ k → k < d → 0 ≤ i → i < h → 0 ≤ j → j < w →
      wrap 0 (wrap (fun _ => 0) (wrap (fun _ _ => 0)
        (fun (_ : Fin d) (_ : Fin h) (_ : Fin w) => c) k) i) j = c := by
    intro k i j hk0 hk1 hi0 hi1 hj0 hj1
    rw [wrap_nonneg _ _ hj0 hj1, wrap_nonneg _ _ hi0 hi1, wrap_nonneg _ _ hk0 hk1]
  rcases hm with rfl | rfl
  · rw [interp3d_nearest (by omega) (by omega) (by omega) _ _ _ _ padding hp, if_neg hz]
    obtain ⟨a0, a1⟩ := roundIdx_bounds (show 1 ≤ w by omega) (roundHalfEven (toPix x w))
    obtain ⟨b0, b1⟩ := roundIdx_bounds (show 1 ≤ h by omega) (roundHalfEven (toPix y h))
    obtain ⟨c0, c1⟩ := roundIdx_bounds (show 1 ≤ d by omega) (roundHalfEven (toPix t d))
    rw [hv _ _ _ c0 c1 b0 b1 a0 a1]
  · rw [interp3d_linear (by omega) (by omega) (by omega) _ _ _ _ padding hp, if_neg hz]
    congr 1
    obtain ⟨a0, a1⟩ := cell_bounds2 hw (toPix x w)
    obtain ⟨b0, b1⟩ := cell_bounds2 hh (toPix y h)
    obtain ⟨c0, c1⟩ := cell_bounds2 hd (toPix t d)
    unfold lin
    beta_reduce
    rw [hv _ _ _ c0 (by omega) b0 (by omega) a0 (by omega), hv _ _ _ c0 (by omega) b0 (by omega) (by omega) a1,
      hv _ _ _ c0 (by omega) (by omega) b1 a0 (by omega), hv _ _ _ c0 (by omega) (by omega) b1 (by omega) a1,
      hv _ _ _ (by omega) c1 b0 (by omega) a0 (by omega), hv _ _ _ (by omega) c1 b0 (by omega) (by omega) a1,
      hv _ _ _ (by omega) c1 (by omega) b1 a0 (by omega), hv _ _ _ (by omega) c1 (by omega) b1 (by omega) a1]
    ring

/-- A 2×2×2 cube with distinct corners. -/
example : let cu : Fin 2 → Fin 2 → Fin 2 → ℚ :=
      fun k i j => 100 * ((k : ℕ) : ℚ) + 10 * ((i : ℕ) : ℚ) + ((j : ℕ) : ℚ)
    interp3d cu (1 / 4) 0 (-1 / 4) "linear" "zeros" = .ok (123 / 4) ∧
    interp3d cu (centre 2 1) (centre 2 0) (centre 2 1) "linear" "zeros" = .ok 101 ∧
    interp3d cu 0 0 3 "linear" "zeros" = .ok 0 ∧
    interp3d cu 0 0 0 "linear" "clamp" = .error .valueError := by decide +kernel

end Caustics

import Verif.Lemmas.Interp2d
import Mathlib.Tactic.NormNum
import Mathlib.Tactic.Positivity
import Mathlib.Data.Rat.Floor

/-! C09: `interp2d`. -/

namespace Caustics

variable {K : Type*} [Field K] [LinearOrder K] [FloorRing K] [IsStrictOrderedRing K]

/-- C09: no query raises, for every non-empty image, both methods and every padding mode. -/
theorem C09_total {h w : ℕ} (hh : 1 ≤ h) (hw : 1 ≤ w) (im : Fin h → Fin w → K) (x y : K)
    (method padding : String) (hm : method = "nearest" ∨ method = "linear") (hp : Pad2 padding) :
    ∃ r, interp2d im x y method padding = .ok r := by
  rcases hm with rfl | rfl
  · exact ⟨_, interp2d_nearest hh hw im x y padding hp⟩
  · exact ⟨_, interp2d_linear hh hw im x y padding hp⟩

omit [IsStrictOrderedRing K] in
/-- C09: an unknown padding mode or method raises `ValueError`, whatever the rest. -/
theorem C09_errors {h w : ℕ} (im : Fin h → Fin w → K) (x y : K) (method padding : String) :
    (¬ Pad2 padding → interp2d im x y method padding = .error .valueError) ∧
    (method ≠ "nearest" → method ≠ "linear" →
      interp2d im x y method padding = .error .valueError) := by
  unfold Pad2 interp2d
  constructor
  · intro h
    rw [if_pos (by tauto)]
  · intro h1 h2
    simp only [h1, h2, if_false]
    split_ifs <;> rfl

/-- C09: a pixel centre returns that pixel, for both methods and every padding mode (linear needs
two pixels per axis). -/
theorem C09_centre {h w : ℕ} (hh : 2 ≤ h) (hw : 2 ≤ w) (im : Fin h → Fin w → K)
    (i : Fin h) (j : Fin w) (method padding : String)
    (hm : method = "nearest" ∨ method = "linear") (hp : Pad2 padding) :
    interp2d im (centre w j) (centre h i) method padding = .ok (im i j) := by
  obtain ⟨fx0, fx1⟩ := centre_in_frame (K := K) j.isLt
  obtain ⟨fy0, fy1⟩ := centre_in_frame (K := K) i.isLt
  have hz : ¬ (padding = "zeros" ∧ (offFrame (centre h i : K) || offFrame (centre w j : K)) = true) := by
    rw [onFrame fx0 fx1, onFrame fy0 fy1]; simp
  rcases hm with rfl | rfl
  · rw [interp2d_nearest (by omega) (by omega) im _ _ padding hp, if_neg hz, pad_id fx0 fx1,
      pad_id fy0 fy1, toPix_centre (by omega), toPix_centre (by omega), round_nat, round_nat]
    have e1 : clamp ((i : ℕ) : ℤ) 0 ((h : ℤ) - 1) = ((i : ℕ) : ℤ) := by
      have := i.isLt; unfold clamp; omega
    have e2 : clamp ((j : ℕ) : ℤ) 0 ((w : ℤ) - 1) = ((j : ℕ) : ℤ) := by
      have := j.isLt; unfold clamp; omega
    rw [e1, e2, wrap_nat _ _ _ j.isLt, wrap_nat _ _ _ i.isLt]
  · rw [interp2d_linear (by omega) (by omega) im _ _ padding hp, if_neg hz, pad_id fx0 fx1,
      pad_id fy0 fy1, toPix_centre (by omega), toPix_centre (by omega)]
    have key : ∀ (n : ℕ) (_ : 2 ≤ n) (k : ℕ) (_ : k < n) (f : ℤ → K), lin n (k : K) f = f k := by
      intro n hn k hk f
      by_cases hlast : k + 1 < n
      · rw [lin_cell (j := (k : ℤ)) (by omega) (by omega) (by simp) (by simp)]
        push_cast; ring
      · rw [lin_cell (j := (k : ℤ) - 1) (by omega) (by omega) (by simp) (by simp)]
        push_cast
        rw [sub_add_cancel]
        simp
    rw [key h hh i i.isLt, key w hw j j.isLt, wrap_nat _ _ _ j.isLt, wrap_nat _ _ _ i.isLt]

/-- C09: in the cell between four neighbouring pixel centres (edges included) the linear method is
the bilinear interpolation of the four pixels, for every padding mode. -/
theorem C09_cell {h w : ℕ} (im : Fin h → Fin w → K) (x y : K) (padding : String)
    (hp : Pad2 padding) (i j : ℕ) (hi : i + 1 < h) (hj : j + 1 < w)
    (hx0 : (j : K) ≤ pixCoord w x) (hx1 : pixCoord w x ≤ (j : K) + 1)
    (hy0 : (i : K) ≤ pixCoord h y) (hy1 : pixCoord h y ≤ (i : K) + 1) :
    interp2d im x y "linear" padding = .ok (bilinear
      (im ⟨i, by omega⟩ ⟨j, by omega⟩) (im ⟨i, by omega⟩ ⟨j + 1, hj⟩)
      (im ⟨i + 1, hi⟩ ⟨j, by omega⟩) (im ⟨i + 1, hi⟩ ⟨j + 1, hj⟩)
      (pixCoord w x - j) (pixCoord h y - i)) := by
  have frame : ∀ (n k : ℕ) (z : K), k + 1 < n → (k : K) ≤ pixCoord n z → pixCoord n z ≤ (k : K) + 1 →
      -1 ≤ z ∧ z ≤ 1 := by
    intro n k z hk h0 h1
    have hn : (0 : K) < n := by exact_mod_cast (by omega : 0 < n)
    have hk' : (k : K) + 2 ≤ n := by exact_mod_cast (by omega : k + 2 ≤ n)
    have hk0 : (0 : K) ≤ k := by positivity
    unfold pixCoord at h0 h1
    constructor
    · by_contra hc
      have : (n : K) * (z + 1) < 0 := mul_neg_of_pos_of_neg hn (by linarith)
      linarith
    · by_contra hc
      have : (n : K) * 2 < (n : K) * (z + 1) := mul_lt_mul_of_pos_left (by linarith) hn
      linarith
  obtain ⟨fx0, fx1⟩ := frame w j x hj hx0 hx1
  obtain ⟨fy0, fy1⟩ := frame h i y hi hy0 hy1
  rw [interp2d_linear (by omega) (by omega) im _ _ padding hp,
    if_neg (by rw [onFrame fx0 fx1, onFrame fy0 fy1]; simp), pad_id fx0 fx1, pad_id fy0 fy1,
    toPix_eq, toPix_eq]
  have hlx : ∀ f : ℤ → K, lin w (pixCoord w x) f
      = f j * ((j : K) + 1 - pixCoord w x) + f ((j + 1 : ℕ) : ℤ) * (pixCoord w x - j) := by
    intro f
    have := lin_cell (n := w) (p := pixCoord w x) (j := (j : ℤ)) (by omega) (by omega)
      (by simpa using hx0) (by simpa using hx1) f
    rw [this]; push_cast; rfl
  have hly : ∀ f : ℤ → K, lin h (pixCoord h y) f
      = f i * ((i : K) + 1 - pixCoord h y) + f ((i + 1 : ℕ) : ℤ) * (pixCoord h y - i) := by
    intro f
    have := lin_cell (n := h) (p := pixCoord h y) (j := (i : ℤ)) (by omega) (by omega)
      (by simpa using hy0) (by simpa using hy1) f
    rw [this]; push_cast; rfl
  rw [hly, hlx, hlx, wrap_nat _ _ i (by omega), wrap_nat _ _ (i + 1) hi]
  simp only [wrap_nat _ _ j (show j < w by omega), wrap_nat _ _ (j + 1) hj]
  unfold bilinear
  congr 1
  ring

/-- C09: between the outermost pixel centres linear interpolation lies between any bounds on the
pixels. -/
theorem C09_bounded {h w : ℕ} (hh : 2 ≤ h) (hw : 2 ≤ w) (im : Fin h → Fin w → K) (x y lo hi : K)
    (padding : String) (hp : Pad2 padding)
    (hx0 : 0 ≤ pixCoord w x) (hx1 : pixCoord w x ≤ (w : K) - 1)
    (hy0 : 0 ≤ pixCoord h y) (hy1 : pixCoord h y ≤ (h : K) - 1)
    (hb : ∀ i j, lo ≤ im i j ∧ im i j ≤ hi) :
    ∃ r, interp2d im x y "linear" padding = .ok r ∧ lo ≤ r ∧ r ≤ hi := by
  have frame : ∀ (n : ℕ) (z : K), 2 ≤ n → 0 ≤ pixCoord n z → pixCoord n z ≤ (n : K) - 1 →
      -1 ≤ z ∧ z ≤ 1 := by
    intro n z hn h0 h1
    have hn : (0 : K) < n := by exact_mod_cast (by omega : 0 < n)
    unfold pixCoord at h0 h1
    constructor
    · by_contra hc
      have : (n : K) * (z + 1) < 0 := mul_neg_of_pos_of_neg hn (by linarith)
      linarith
    · by_contra hc
      have : (n : K) * 2 < (n : K) * (z + 1) := mul_lt_mul_of_pos_left (by linarith) hn
      linarith
  obtain ⟨fx0, fx1⟩ := frame w x hw hx0 hx1
  obtain ⟨fy0, fy1⟩ := frame h y hh hy0 hy1
  refine ⟨_, by
    rw [interp2d_linear (by omega) (by omega) im _ _ padding hp,
      if_neg (by rw [onFrame fx0 fx1, onFrame fy0 fy1]; simp), pad_id fx0 fx1, pad_id fy0 fy1,
      toPix_eq, toPix_eq], ?_⟩
  apply lin_between hh hy0 hy1
  intro i hi0 hi1
  apply lin_between hw hx0 hx1
  intro j hj0 hj1
  rw [wrap_nonneg _ _ hj0 hj1, wrap_nonneg _ _ hi0 hi1]
  exact hb _ _

/-- C09: the restriction to the outermost pixel centres matters: in the half pixel between the last
centre and the frame edge the linear method extrapolates and can leave the range of the pixels. -/
theorem C09_border_extrapolates :
    interp2d (K := ℚ) (h := 2) (w := 2) (fun _ j => if j = 0 then 0 else 1) 1 0 "linear" "zeros"
      = .ok (3 / 2) := by decide +kernel

/-- C09: nearest interpolation returns the pixel whose centre is within half a pixel of the query
on both axes, for every query in the frame. -/
theorem C09_nearest {h w : ℕ} (hh : 1 ≤ h) (hw : 1 ≤ w) (im : Fin h → Fin w → K) (x y : K)
    (padding : String) (hp : Pad2 padding) (hx : -1 ≤ x ∧ x ≤ 1) (hy : -1 ≤ y ∧ y ≤ 1) :
    ∃ i j, interp2d im x y "nearest" padding = .ok (im i j) ∧
      |pixCoord w x - ((j : ℕ) : K)| ≤ 1 / 2 ∧ |pixCoord h y - ((i : ℕ) : K)| ≤ 1 / 2 := by
  have key : ∀ (n : ℕ) (z : K), 1 ≤ n → -1 ≤ z → z ≤ 1 →
      |pixCoord n z - ((clamp (roundHalfEven (pixCoord n z)) 0 ((n : ℤ) - 1) : ℤ) : K)| ≤ 1 / 2 := by
    intro n z hn h0 h1
    have hn' : (1 : K) ≤ n := by exact_mod_cast hn
    have hp0 : -(1 / 2) ≤ pixCoord n z := by
      unfold pixCoord
      have : 0 ≤ (n : K) * (z + 1) := mul_nonneg (by linarith) (by linarith)
      linarith
    have hp1 : pixCoord n z ≤ (n : K) - 1 / 2 := by
      unfold pixCoord
      have : (n : K) * (z + 1) ≤ (n : K) * 2 := mul_le_mul_of_nonneg_left (by linarith) (by linarith)
      linarith
    have hr := abs_le.mp (round_near (pixCoord n z))
    set r := roundHalfEven (pixCoord n z) with hrdef
    unfold clamp
    rcases lt_trichotomy r 0 with hlt | heq | hgt
    · have e : min (max r 0) ((n : ℤ) - 1) = 0 := by omega
      have : (r : K) ≤ -1 := by exact_mod_cast (by omega : r ≤ -1)
      rw [e, abs_le]; push_cast; constructor <;> linarith
    · have e : min (max r 0) ((n : ℤ) - 1) = r := by omega
      rw [e, abs_le]; exact hr
    · by_cases hrn : r ≤ (n : ℤ) - 1
      · have e : min (max r 0) ((n : ℤ) - 1) = r := by omega
        rw [e, abs_le]; exact hr
      · have e : min (max r 0) ((n : ℤ) - 1) = (n : ℤ) - 1 := by omega
        have : (n : K) ≤ (r : K) := by exact_mod_cast (by omega : (n : ℤ) ≤ r)
        rw [e, abs_le]; push_cast; constructor <;> linarith
  have hx' := key w x hw hx.1 hx.2
  have hy' := key h y hh hy.1 hy.2
  obtain ⟨a0, a1⟩ := roundIdx_bounds hw (roundHalfEven (pixCoord w x))
  obtain ⟨b0, b1⟩ := roundIdx_bounds hh (roundHalfEven (pixCoord h y))
  refine ⟨⟨(clamp (roundHalfEven (pixCoord h y)) 0 ((h : ℤ) - 1)).toNat, by omega⟩,
    ⟨(clamp (roundHalfEven (pixCoord w x)) 0 ((w : ℤ) - 1)).toNat, by omega⟩, ?_, ?_, ?_⟩
  · rw [interp2d_nearest hh hw im _ _ padding hp,
      if_neg (by rw [onFrame hx.1 hx.2, onFrame hy.1 hy.2]; simp), pad_id hx.1 hx.2,
      pad_id hy.1 hy.2, toPix_eq, toPix_eq, wrap_nonneg _ _ a0 a1, wrap_nonneg _ _ b0 b1]
  · have e : (((clamp (roundHalfEven (pixCoord w x)) 0 ((w : ℤ) - 1)).toNat : ℕ) : K)
        = ((clamp (roundHalfEven (pixCoord w x)) 0 ((w : ℤ) - 1) : ℤ) : K) := by
      rw [← Int.cast_natCast, Int.toNat_of_nonneg a0]
    simp only [e]; exact hx'
  · have e : (((clamp (roundHalfEven (pixCoord h y)) 0 ((h : ℤ) - 1)).toNat : ℕ) : K)
        = ((clamp (roundHalfEven (pixCoord h y)) 0 ((h : ℤ) - 1) : ℤ) : K) := by
      rw [← Int.cast_natCast, Int.toNat_of_nonneg b0]
    simp only [e]; exact hy'

/-- C09: a query half-way between two pixel centres gets the pixel with the even number (`round` rounds halves to
even). -/
theorem C09_nearest_tie {h w : ℕ} (hh : 1 ≤ h) (hw : 1 ≤ w) (im : Fin h → Fin w → K) (x y : K)
    (padding : String) (hp : Pad2 padding) (hx : -1 ≤ x ∧ x ≤ 1) (hy : -1 ≤ y ∧ y ≤ 1) :
    ∃ i j, interp2d im x y "nearest" padding = .ok (im i j) ∧
      (∀ k : ℕ, k + 1 < w → pixCoord w x = (k : K) + 1 / 2 → ((j : ℕ) = k ∨ (j : ℕ) = k + 1) ∧ Even (j : ℕ)) ∧
      ∀ k : ℕ, k + 1 < h → pixCoord h y = (k : K) + 1 / 2 → ((i : ℕ) = k ∨ (i : ℕ) = k + 1) ∧ Even (i : ℕ) := by
  have key : ∀ (n k : ℕ) (z : K), k + 1 < n → z = (k : K) + 1 / 2 →
      ((clamp (roundHalfEven z) 0 ((n : ℤ) - 1)).toNat = k ∨ (clamp (roundHalfEven z) 0 ((n : ℤ) - 1)).toNat = k + 1) ∧
        Even (clamp (roundHalfEven z) 0 ((n : ℤ) - 1)).toNat := by
    intro n k z hk hz
    have hf : ⌊z⌋ = (k : ℤ) := by
      rw [Int.floor_eq_iff, hz]
      constructor
      · push_cast; linarith
      · push_cast; linarith
    have hr : roundHalfEven z = if (k : ℤ) % 2 = 0 then (k : ℤ) else k + 1 := by
      unfold roundHalfEven
      rw [hf, hz]
      simp only [Int.cast_natCast, add_sub_cancel_left, lt_irrefl, if_false]
    rw [hr]
    unfold clamp
    by_cases h2 : (k : ℤ) % 2 = 0
    · rw [if_pos h2]
      have e : (min (max (k : ℤ) 0) ((n : ℤ) - 1)).toNat = k := by omega
      rw [e]
      exact ⟨.inl rfl, Nat.even_iff.2 (by omega)⟩
    · rw [if_neg h2]
      have e : (min (max ((k : ℤ) + 1) 0) ((n : ℤ) - 1)).toNat = k + 1 := by omega
      rw [e]
      exact ⟨.inr rfl, Nat.even_iff.2 (by omega)⟩
  obtain ⟨a0, a1⟩ := roundIdx_bounds hw (roundHalfEven (pixCoord w x))
  obtain ⟨b0, b1⟩ := roundIdx_bounds hh (roundHalfEven (pixCoord h y))
  refine ⟨⟨(clamp (roundHalfEven (pixCoord h y)) 0 ((h : ℤ) - 1)).toNat, by omega⟩,
    ⟨(clamp (roundHalfEven (pixCoord w x)) 0 ((w : ℤ) - 1)).toNat, by omega⟩, ?_, fun k hk hz => key w k _ hk hz,
    fun k hk hz => key h k _ hk hz⟩
  rw [interp2d_nearest hh hw im _ _ padding hp,
    if_neg (by rw [onFrame hx.1 hx.2, onFrame hy.1 hy.2]; simp), pad_id hx.1 hx.2,
    pad_id hy.1 hy.2, toPix_eq, toPix_eq, wrap_nonneg _ _ a0 a1, wrap_nonneg _ _ b0 b1]

/-- Half-way between pixels 0 and 1 the value of pixel 0, half-way between 1 and 2 that of pixel 2. -/
example : let im : Fin 1 → Fin 4 → ℚ := fun _ j => ((j : ℕ) : ℚ) ^ 2
    pixCoord 4 (-1 / 2 : ℚ) = 1 / 2 ∧ interp2d im (-1 / 2) 0 "nearest" "zeros" = .ok 0 ∧
    pixCoord 4 (0 : ℚ) = 3 / 2 ∧ interp2d im 0 0 "nearest" "zeros" = .ok 4 := by
  decide +kernel

omit [IsStrictOrderedRing K] in
/-- C09: with "zeros" padding every query outside the frame gives zero. -/
theorem C09_zeros {h w : ℕ} (hh : 1 ≤ h) (hw : 1 ≤ w) (im : Fin h → Fin w → K) (x y : K)
    (method : String) (hm : method = "nearest" ∨ method = "linear")
    (hout : x < -1 ∨ 1 < x ∨ y < -1 ∨ 1 < y) :
    interp2d im x y method "zeros" = .ok 0 := by
  have hz : ("zeros" = "zeros" ∧ (offFrame y || offFrame x) = true) := by
    refine ⟨rfl, ?_⟩
    simp only [offFrame, Bool.or_eq_true, decide_eq_true_eq, gt_iff_lt]
    tauto
  rcases hm with rfl | rfl
  · rw [interp2d_nearest hh hw im x y "zeros" (by simp), if_pos hz]
  · rw [interp2d_linear hh hw im x y "zeros" (by simp), if_pos hz]

/-- C09: with "clamp" padding every query gives what the nearest point of the frame gives. -/
theorem C09_clamp {h w : ℕ} (hh : 1 ≤ h) (hw : 1 ≤ w) (im : Fin h → Fin w → K) (x y : K)
    (method : String) (hm : method = "nearest" ∨ method = "linear") :
    interp2d im x y method "clamp"
      = interp2d im (max (-1) (min 1 x)) (max (-1) (min 1 y)) method "extrapolate" := by
  have hc : ∀ z : K, clamp z (-1) 1 = max (-1) (min 1 z) := by
    intro z
    unfold clamp
    rcases le_total z (-1) with h | h
    · rw [max_eq_right h, min_eq_left (by linarith), min_eq_right (by linarith), max_eq_left h]
    · rw [max_eq_left h]
      rcases le_total z 1 with h1 | h1
      · rw [min_eq_left h1, min_eq_right h1, max_eq_right h]
      · rw [min_eq_right h1, min_eq_left h1, max_eq_right (by linarith)]
  rcases hm with rfl | rfl
  · rw [interp2d_nearest hh hw im x y "clamp" (by simp),
      interp2d_nearest hh hw im _ _ "extrapolate" (by simp)]
    simp [hc]
  · rw [interp2d_linear hh hw im x y "clamp" (by simp),
      interp2d_linear hh hw im _ _ "extrapolate" (by simp)]
    simp [hc]

/-- C09: an affine image is reproduced by the linear method at every query with "extrapolate", and
inside the frame with "zeros" and "clamp". -/
theorem C09_affine {h w : ℕ} (hh : 2 ≤ h) (hw : 2 ≤ w) (a b c : K) (x y : K) (padding : String)
    (hp : Pad2 padding)
    (hin : padding ≠ "extrapolate" → (-1 ≤ x ∧ x ≤ 1) ∧ (-1 ≤ y ∧ y ≤ 1)) :
    interp2d (h := h) (w := w) (fun i j => a + b * ((j : ℕ) : K) + c * ((i : ℕ) : K)) x y "linear"
      padding = .ok (a + b * pixCoord w x + c * pixCoord h y) := by
  have hz : ¬ (padding = "zeros" ∧ (offFrame y || offFrame x) = true) := by
    rintro ⟨hpz, ho⟩
    obtain ⟨hx, hy⟩ := hin (by rw [hpz]; decide)
    rw [onFrame hx.1 hx.2, onFrame hy.1 hy.2] at ho
    simp at ho
  have hpx : (if padding = "clamp" then clamp x (-1) 1 else x) = x := by
    by_cases hc : padding = "clamp"
    · obtain ⟨hx, _⟩ := hin (by rw [hc]; decide)
      exact pad_id hx.1 hx.2 padding
    · rw [if_neg hc]
  have hpy : (if padding = "clamp" then clamp y (-1) 1 else y) = y := by
    by_cases hc : padding = "clamp"
    · obtain ⟨_, hy⟩ := hin (by rw [hc]; decide)
      exact pad_id hy.1 hy.2 padding
    · rw [if_neg hc]
  rw [interp2d_linear (by omega) (by omega) _ _ _ padding hp, if_neg hz, hpx, hpy, toPix_eq, toPix_eq]
  congr 1
  obtain ⟨cx0, cx1⟩ := cell_bounds2 hw (pixCoord w x)
  obtain ⟨cy0, cy1⟩ := cell_bounds2 hh (pixCoord h y)
  have hv : ∀ (i j : ℤ), 0 ≤ i → i < h → 0 ≤ j → j < w →
      wrap 0 (wrap (fun _ => 0) (fun (i : Fin h) (j : Fin w) =>
        a + b * ((j : ℕ) : K) + c * ((i : ℕ) : K)) i) j = a + b * (j : K) + c * (i : K) := by
    intro i j hi0 hi1 hj0 hj1
    rw [wrap_nonneg _ _ hj0 hj1, wrap_nonneg _ _ hi0 hi1]
    have e1 : ((i.toNat : ℕ) : K) = (i : K) := by rw [← Int.cast_natCast, Int.toNat_of_nonneg hi0]
    have e2 : ((j.toNat : ℕ) : K) = (j : K) := by rw [← Int.cast_natCast, Int.toNat_of_nonneg hj0]
    simp only [e1, e2]
  have hrow : ∀ i : ℤ, 0 ≤ i → i < h → lin w (pixCoord w x) (fun j =>
      wrap 0 (wrap (fun _ => 0) (fun (i : Fin h) (j : Fin w) =>
        a + b * ((j : ℕ) : K) + c * ((i : ℕ) : K)) i) j)
      = (a + b * pixCoord w x) + c * (i : K) := by
    intro i hi0 hi1
    rw [lin_affine w _ (a + c * (i : K)) b]
    · ring
    · rw [hv i _ hi0 hi1 cx0 (by omega)]; ring
    · rw [hv i _ hi0 hi1 (by omega) cx1]; push_cast; ring
  rw [lin_affine h _ (a + b * pixCoord w x) c]
  · rw [hrow _ cy0 (by omega)]
  · rw [hrow _ (by omega) cy1]; push_cast; ring

/-- A 2×3 image sampled in a cell, at a centre, outside with each padding. -/
example : let im : Fin 2 → Fin 3 → ℚ := fun i j => 10 * ((i : ℕ) : ℚ) + ((j : ℕ) : ℚ) ^ 2
    interp2d im (1 / 3) 0 "linear" "zeros" = .ok (15 / 2) ∧
    interp2d im (centre 3 2) (centre 2 1) "linear" "zeros" = .ok 14 ∧
    interp2d im 2 0 "linear" "zeros" = .ok 0 ∧
    interp2d im 2 0 "linear" "clamp" = .ok (21 / 2) ∧
    interp2d im 2 0 "linear" "extrapolate" = .ok 15 ∧
    interp2d im 0 0 "nearest" "zeros" = .ok 1 ∧
    interp2d im 0 0 "cubic" "zeros" = .error .valueError := by
  decide +kernel

end Caustics

import Verif.Lemmas.Bicubic
import Mathlib.Data.Rat.Floor

/-! C11 and C12: `interp_bicubic`, `bicubic_kernels` and `PixelatedPotential`. -/

namespace Caustics

section tensor

variable {K : Type*} [Field K]

private theorem tensor_form (a0 a1 a2 a3 b0 b1 b2 b3 c0 c1 c2 c3 d0 d1 d2 d3 t u : K) :
    bicubicY (bicubicCoef [a0, a1, a2, a3, b0, b1, b2, b3, c0, c1, c2, c3, d0, d1, d2, d3]) t u =
      cubic (cubic a0 a1 b0 b1 t) (cubic a3 a2 b3 b2 t) (cubic c0 c1 d0 d1 t)
        (cubic c3 c2 d3 d2 t) u := by
  simp [bicubicY, bicubicCoef, BC, Finset.sum_range_succ, cubic]
  ring

end tensor

section algebraic

variable {K : Type*} [Field K] [LinearOrder K] [FloorRing K] [IsStrictOrderedRing K]

private theorem bipos_centre {n j : ℕ} (hj : j < n) : bipos n (centre n j : K) = j := by
  unfold bipos
  rw [toPix_centre (by omega)]
  have h1 : (j : K) + 1 ≤ n := by exact_mod_cast hj
  have h0 : (0 : K) ≤ j := by positivity
  unfold clamp
  rw [max_eq_left (by linarith), min_eq_left (by linarith)]

/-- At a knot the query falls at one of the two ends of its cell. -/
private theorem cell_nat {n j : ℕ} (hn : 2 ≤ n) (hj : j < n) :
    (cell n (j : K) = j ∧ j + 1 < n) ∨ (cell n (j : K) = (j : ℤ) - 1 ∧ j + 1 = n) := by
  have : ⌊(j : K)⌋ = j := by simp
  unfold cell clamp
  rw [this]
  omega

omit [LinearOrder K] [FloorRing K] [IsStrictOrderedRing K] in
private theorem at2_nat {h w : ℕ} (m : Fin h → Fin w → K) (i : Fin h) (j : Fin w) :
    at2 m (i : ℕ) (j : ℕ) = m i j := by
  unfold at2; rw [wrap_nat _ _ _ j.isLt, wrap_nat _ _ _ i.isLt]

private theorem centre_resolved {h w : ℕ} (hh : 2 ≤ h) (hw : 2 ≤ w)
    (Z dZ1 dZ2 dZ12 : Fin h → Fin w → K) (o1 o2 o12 : Option (Fin h → Fin w → K))
    (hm : resolveMaps Z o1 o2 o12 = .ok (dZ1, dZ2, dZ12)) (i : Fin h) (j : Fin w) :
    ∃ c11 c22, interpBicubic (centre w j) (centre h i) Z o1 o2 o12
      true true true = .ok [Z i j, dZ1 i j, dZ2 i j, dZ12 i j, c11, c22] := by
  have hz : ∀ (a : ℕ), (a : K) - ((a : ℤ) : K) = 0 := by intro a; simp
  have ho : ∀ (a : ℕ), (a : K) - (((a : ℤ) - 1 : ℤ) : K) = 1 := by intro a; push_cast; ring
  have key : ∀ c t u, c = cellCoef Z dZ1 dZ2 dZ12 (cell h (i : K)) (cell w (j : K)) →
      t = (j : K) - (cell w (j : K) : K) → u = (i : K) - (cell h (i : K) : K) →
      bicubicY c t u = Z i j ∧ bicubicY1 c t u = dZ1 i j ∧ bicubicY2 c t u = dZ2 i j ∧
      bicubicY12 c t u = dZ12 i j := by
    rintro c t u rfl rfl rfl
    rcases cell_nat (K := K) hh i.isLt with ⟨ei, _⟩ | ⟨ei, _⟩ <;>
      rcases cell_nat (K := K) hw j.isLt with ⟨ej, _⟩ | ⟨ej, _⟩ <;>
      rw [ei, ej] <;> simp only [hz, ho, cell_u0, cell_u1, cubic_ends, sub_add_cancel, at2_nat,
        and_self]
  rw [interpBicubic_eval hh hw (centre w j : K) (centre h i) Z o1 o2 o12
    dZ1 dZ2 dZ12 hm true true true]
  simp only [bipos_centre i.isLt, bipos_centre j.isLt, if_true, List.cons_append, List.nil_append]
  obtain ⟨h1, h2, h3, h4⟩ := key _ _ _ rfl rfl rfl
  rw [h1, h2, h3, h4]
  exact ⟨_, _, rfl⟩

/-- C11: at a pixel centre the value and the three supplied derivatives of that pixel come back. -/
theorem C11_centre {h w : ℕ} (hh : 2 ≤ h) (hw : 2 ≤ w) (Z dZ1 dZ2 dZ12 : Fin h → Fin w → K)
    (i : Fin h) (j : Fin w) :
    ∃ c11 c22, interpBicubic (centre w j) (centre h i) Z (some dZ1) (some dZ2) (some dZ12)
      true true true = .ok [Z i j, dZ1 i j, dZ2 i j, dZ12 i j, c11, c22] :=
  centre_resolved hh hw Z dZ1 dZ2 dZ12 _ _ _ rfl i j

/-- C11: whichever of the three derivative maps are supplied, those are the ones used: their values
come back at the pixel centres, and so does the image. -/
theorem C11_supplied_maps {h w : ℕ} (hh : 2 ≤ h) (hw : 2 ≤ w) (Z : Fin h → Fin w → K)
    (dZ1 dZ2 dZ12 : Option (Fin h → Fin w → K)) (i : Fin h) (j : Fin w) :
    ∃ v1 v2 v12 c11 c22, interpBicubic (centre w j) (centre h i) Z dZ1 dZ2 dZ12 true true true
        = .ok [Z i j, v1, v2, v12, c11, c22] ∧
      (∀ m, dZ1 = some m → v1 = m i j) ∧ (∀ m, dZ2 = some m → v2 = m i j) ∧
      (∀ m, dZ12 = some m → v12 = m i j) := by
  have key : ∃ m1 m2 m12, resolveMaps Z dZ1 dZ2 dZ12 = .ok (m1, m2, m12) ∧
      (∀ m, dZ1 = some m → m1 = m) ∧ (∀ m, dZ2 = some m → m2 = m) ∧
      (∀ m, dZ12 = some m → m12 = m) := by
    unfold resolveMaps
    split
    · exact ⟨_, _, _, rfl, by simp, by simp, by simp⟩
    · unfold bicubicKernels
      rw [dif_pos ⟨hh, hw⟩]
      exact ⟨_, _, _, rfl, by rintro m rfl; rfl, by rintro m rfl; rfl, by rintro m rfl; rfl⟩
  obtain ⟨m1, m2, m12, hm, h1, h2, h12⟩ := key
  obtain ⟨c11, c22, e⟩ := centre_resolved hh hw Z m1 m2 m12 _ _ _ hm i j
  exact ⟨_, _, _, c11, c22, e, fun m h => by rw [h1 m h], fun m h => by rw [h2 m h],
    fun m h => by rw [h12 m h]⟩

example : ∃ v2 v12 c11 c22, interpBicubic (centre 3 (1 : Fin 3) : ℚ) (centre 3 (0 : Fin 3))
      (fun i j : Fin 3 => (i : ℚ) * j) (some fun _ _ => 7) none none true true true
      = .ok [0, 7, v2, v12, c11, c22] := by
  obtain ⟨v1, v2, v12, c11, c22, e, h1, -⟩ := C11_supplied_maps (K := ℚ) (h := 3) (w := 3)
    (by norm_num) (by norm_num) (fun i j => (i : ℚ) * j) (some fun _ _ => 7) none none 0 1
  refine ⟨v2, v12, c11, c22, ?_⟩
  rw [e, h1 _ rfl]
  simp

/-- C11: an image sampled from a bicubic polynomial in the pixel coordinates, with its exact
derivatives supplied, is reproduced at every point of the frame. -/
theorem C11_exact {h w : ℕ} (hh : 2 ≤ h) (hw : 2 ≤ w) (p : Fin 4 → Fin 4 → K)
    (Z dZ1 dZ2 dZ12 : Fin h → Fin w → K)
    (hZ : ∀ i j, Z i j = ∑ a, ∑ b, p a b * ((j : ℕ) : K) ^ a.val * ((i : ℕ) : K) ^ b.val)
    (h1 : ∀ i j, dZ1 i j
      = ∑ a, ∑ b, p a b * ((a : ℕ) * ((j : ℕ) : K) ^ (a.val - 1)) * ((i : ℕ) : K) ^ b.val)
    (h2 : ∀ i j, dZ2 i j
      = ∑ a, ∑ b, p a b * ((j : ℕ) : K) ^ a.val * ((b : ℕ) * ((i : ℕ) : K) ^ (b.val - 1)))
    (h12 : ∀ i j, dZ12 i j = ∑ a, ∑ b, p a b * ((a : ℕ) * ((j : ℕ) : K) ^ (a.val - 1))
      * ((b : ℕ) * ((i : ℕ) : K) ^ (b.val - 1)))
    (x y : K) (hx0 : -1 ≤ x) (hx1 : x ≤ 1) (hy0 : -1 ≤ y) (hy1 : y ≤ 1) :
    interpBicubic x y Z (some dZ1) (some dZ2) (some dZ12) true false false
      = .ok [∑ a, ∑ b, p a b * pixCoord w x ^ a.val * pixCoord h y ^ b.val] := by
  have hpos : ∀ (n : ℕ) (z : K), 2 ≤ n → -1 ≤ z → z ≤ 1 → bipos n z = pixCoord n z := by
    intro n z hn h0 h1
    have hn0 : (0 : K) ≤ n := by positivity
    unfold bipos
    rw [toPix_eq]
    unfold clamp pixCoord
    have : (n : K) * (z + 1) ≤ n * 2 := mul_le_mul_of_nonneg_left (by linarith) hn0
    have : 0 ≤ (n : K) * (z + 1) := mul_nonneg hn0 (by linarith)
    rw [max_eq_left (by linarith), min_eq_left (by linarith)]
  rw [interpBicubic_eval hh hw x y Z (some dZ1) (some dZ2) (some dZ12) dZ1 dZ2 dZ12 rfl]
  simp only [hpos w x hw hx0 hx1, hpos h y hh hy0 hy1, if_true, Bool.false_eq_true, if_false,
    List.append_nil]
  obtain ⟨a0, a1⟩ := cell_bounds2 hw (pixCoord w x)
  obtain ⟨b0, b1⟩ := cell_bounds2 hh (pixCoord h y)
  generalize pixCoord w x = X at *
  generalize pixCoord h y = Y at *
  obtain ⟨k, hk⟩ : ∃ k : ℕ, cell w X = k := ⟨(cell w X).toNat, by omega⟩
  obtain ⟨l, hl⟩ : ∃ l : ℕ, cell h Y = l := ⟨(cell h Y).toNat, by omega⟩
  rw [hk] at a0 a1 ⊢
  rw [hl] at b0 b1 ⊢
  have e : ∀ (m : Fin h → Fin w → K) (i j : ℕ) (hi : i < h) (hj : j < w),
      at2 m (i : ℤ) (j : ℤ) = m ⟨i, hi⟩ ⟨j, hj⟩ := fun m i j hi hj => at2_nat m ⟨i, hi⟩ ⟨j, hj⟩
  congr 2
  unfold cellCoef corners
  simp only [List.cons_append, List.nil_append]
  rw [tensor_form]
  have c1 : ((k : ℤ) + 1) = ((k + 1 : ℕ) : ℤ) := by push_cast; ring
  have c2 : ((l : ℤ) + 1) = ((l + 1 : ℕ) : ℤ) := by push_cast; ring
  simp only [c1, c2, e _ l k (by omega) (by omega), e _ l (k + 1) (by omega) (by omega),
    e _ (l + 1) k (by omega) (by omega), e _ (l + 1) (k + 1) (by omega) (by omega),
    hZ, h1, h2, h12]
  clear hZ h1 h2 h12 e
  obtain ⟨t, rfl⟩ : ∃ t, X = (k : K) + t := ⟨X - k, by ring⟩
  obtain ⟨u, rfl⟩ : ∃ u, Y = (l : K) + u := ⟨Y - l, by ring⟩
  simp only [Fin.sum_univ_four]
  simp [cubic]
  ring

end algebraic

section analytic

private theorem frame_chain {n : ℕ} (hn : 2 ≤ n) {G : ℝ → ℝ} {g x : ℝ} (h0 : -1 < x) (h1 : x < 1)
    (hG : HasDerivAt G g (bipos n x)) : HasDerivAt (fun s => G (bipos n s)) ((n : ℝ) / 2 * g) x := by
  have hn0 : (0 : ℝ) < n := by positivity
  have hb : ∀ s : ℝ, -1 < s → s < 1 → bipos n s = (n : ℝ) / 2 * s + ((n : ℝ) / 2 - 1 / 2) := by
    intro s h0 h1
    unfold bipos
    rw [toPix_eq]
    unfold clamp pixCoord
    have : (n : ℝ) * (s + 1) ≤ n * 2 := mul_le_mul_of_nonneg_left (by linarith) hn0.le
    have : 0 ≤ (n : ℝ) * (s + 1) := mul_nonneg hn0.le (by linarith)
    rw [max_eq_left (by linarith), min_eq_left (by linarith)]
    ring
  have hd : HasDerivAt (fun s : ℝ => bipos n s) ((n : ℝ) / 2) x := by
    have := ((hasDerivAt_id x).const_mul ((n : ℝ) / 2)).add_const ((n : ℝ) / 2 - 1 / 2)
    refine (this.congr_deriv (by ring)).congr_of_eventuallyEq ?_
    filter_upwards [Ioo_mem_nhds h0 h1] with s hs
    simp [hb s hs.1 hs.2]
  have := hG.comp x hd
  refine this.congr_deriv (by ring)

private theorem off_knots {n : ℕ} (hn : 2 ≤ n) {x : ℝ} (h0 : -1 < x) (h1 : x < 1)
    (hx : ∀ j < n, x ≠ centre n j) (k : ℤ) (hk0 : 0 < k) (hk1 : k + 1 < n) :
    bipos n x ≠ (k : ℝ) := by
  intro h
  have hn0 : (0 : ℝ) < n := by positivity
  apply hx k.toNat (by omega)
  unfold bipos at h
  rw [toPix_eq] at h
  unfold clamp pixCoord at h
  have : (n : ℝ) * (x + 1) ≤ n * 2 := mul_le_mul_of_nonneg_left (by linarith) hn0.le
  have : 0 ≤ (n : ℝ) * (x + 1) := mul_nonneg hn0.le (by linarith)
  rw [max_eq_left (by linarith), min_eq_left (by linarith)] at h
  have hk : ((k.toNat : ℕ) : ℝ) = (k : ℝ) := by
    have : ((k.toNat : ℤ) : ℝ) = (k : ℝ) := by rw [Int.toNat_of_nonneg hk0.le]
    exact_mod_cast this
  unfold centre
  rw [hk, ← h]
  field_simp
  ring

/-- C11: whatever derivative maps are supplied or omitted, the outputs of `interp_bicubic` are six
functions of the frame coordinates, returned according to the flags, of which `dY1`, `dY2` are the
partial derivatives of `Y` and `dY12` the derivative of `dY1` in `y` and of `dY2` in `x`, at every
point of the open frame, cell boundaries included; `dY11` and `dY22` are the second derivatives off
the rows and columns of pixel centres.  One frame unit is `w / 2` (`h / 2`) pixels. -/
theorem C11_derivatives {h w : ℕ} (hh : 2 ≤ h) (hw : 2 ≤ w) (Z : Fin h → Fin w → ℝ)
    (dZ1 dZ2 dZ12 : Option (Fin h → Fin w → ℝ)) :
    ∃ Y Y1 Y2 Y12 Y11 Y22 : ℝ → ℝ → ℝ,
      (∀ x y getY getdY getddY, interpBicubic x y Z dZ1 dZ2 dZ12 getY getdY getddY = .ok (
        (if getY then [Y x y] else []) ++ (if getdY then [Y1 x y, Y2 x y] else [])
        ++ (if getddY then [Y12 x y, Y11 x y, Y22 x y] else []))) ∧
      (∀ x y, -1 < x → x < 1 →
        HasDerivAt (fun s => Y s y) ((w : ℝ) / 2 * Y1 x y) x ∧
        HasDerivAt (fun s => Y2 s y) ((w : ℝ) / 2 * Y12 x y) x ∧
        ((∀ j < w, x ≠ centre w j) → HasDerivAt (fun s => Y1 s y) ((w : ℝ) / 2 * Y11 x y) x)) ∧
      (∀ x y, -1 < y → y < 1 →
        HasDerivAt (fun s => Y x s) ((h : ℝ) / 2 * Y2 x y) y ∧
        HasDerivAt (fun s => Y1 x s) ((h : ℝ) / 2 * Y12 x y) y ∧
        ((∀ i < h, y ≠ centre h i) → HasDerivAt (fun s => Y2 x s) ((h : ℝ) / 2 * Y22 x y) y)) := by
  obtain ⟨⟨m1, m2, m12⟩, hm⟩ := resolveMaps_ok hh hw Z dZ1 dZ2 dZ12
  let lift : ((ℕ → ℕ → ℝ) → ℝ → ℝ → ℝ) → ℝ → ℝ → ℝ := fun B x y =>
    B (cellCoef Z m1 m2 m12 (cell h (bipos h y)) (cell w (bipos w x)))
      (bipos w x - (cell w (bipos w x) : ℝ)) (bipos h y - (cell h (bipos h y) : ℝ))
  refine ⟨lift bicubicY, lift bicubicY1, lift bicubicY2, lift bicubicY12, lift bicubicY11,
    lift bicubicY22, fun x y a b c => interpBicubic_eval hh hw x y Z dZ1 dZ2 dZ12 m1 m2 m12 hm a b c,
    fun x y h0 h1 => ⟨?_, ?_, fun hx => ?_⟩, fun x y h0 h1 => ⟨?_, ?_, fun hy => ?_⟩⟩
  · exact frame_chain hw h0 h1 (glue hw
      (fun k s => bicubicY (cellCoef Z m1 m2 m12 (cell h (bipos h y)) k) s
        (bipos h y - (cell h (bipos h y) : ℝ)))
      (fun k s => bicubicY1 (cellCoef Z m1 m2 m12 (cell h (bipos h y)) k) s
        (bipos h y - (cell h (bipos h y) : ℝ))) (fun k s => bicubicY_t _ _ _)
      (fun k _ _ => ⟨(cell_match_x ..).1, (cell_match_x ..).2.1⟩) _)
  · exact frame_chain hw h0 h1 (glue hw
      (fun k s => bicubicY2 (cellCoef Z m1 m2 m12 (cell h (bipos h y)) k) s
        (bipos h y - (cell h (bipos h y) : ℝ)))
      (fun k s => bicubicY12 (cellCoef Z m1 m2 m12 (cell h (bipos h y)) k) s
        (bipos h y - (cell h (bipos h y) : ℝ))) (fun k s => bicubicY2_t _ _ _)
      (fun k _ _ => ⟨(cell_match_x ..).2.2.1, (cell_match_x ..).2.2.2⟩) _)
  · exact frame_chain hw h0 h1 (glue_off hw
      (fun k s => bicubicY1 (cellCoef Z m1 m2 m12 (cell h (bipos h y)) k) s
        (bipos h y - (cell h (bipos h y) : ℝ)))
      (fun k s => bicubicY11 (cellCoef Z m1 m2 m12 (cell h (bipos h y)) k) s
        (bipos h y - (cell h (bipos h y) : ℝ))) (fun k s => bicubicY1_t _ _ _)
      _ (off_knots hw h0 h1 hx))
  · exact frame_chain hh h0 h1 (glue hh
      (fun k s => bicubicY (cellCoef Z m1 m2 m12 k (cell w (bipos w x)))
        (bipos w x - (cell w (bipos w x) : ℝ)) s)
      (fun k s => bicubicY2 (cellCoef Z m1 m2 m12 k (cell w (bipos w x)))
        (bipos w x - (cell w (bipos w x) : ℝ)) s) (fun k s => bicubicY_u _ _ _)
      (fun k _ _ => ⟨(cell_match_y ..).1, (cell_match_y ..).2.2.1⟩) _)
  · exact frame_chain hh h0 h1 (glue hh
      (fun k s => bicubicY1 (cellCoef Z m1 m2 m12 k (cell w (bipos w x)))
        (bipos w x - (cell w (bipos w x) : ℝ)) s)
      (fun k s => bicubicY12 (cellCoef Z m1 m2 m12 k (cell w (bipos w x)))
        (bipos w x - (cell w (bipos w x) : ℝ)) s) (fun k s => bicubicY1_u _ _ _)
      (fun k _ _ => ⟨(cell_match_y ..).2.1, (cell_match_y ..).2.2.2⟩) _)
  · exact frame_chain hh h0 h1 (glue_off hh
      (fun k s => bicubicY2 (cellCoef Z m1 m2 m12 k (cell w (bipos w x)))
        (bipos w x - (cell w (bipos w x) : ℝ)) s)
      (fun k s => bicubicY22 (cellCoef Z m1 m2 m12 k (cell w (bipos w x)))
        (bipos w x - (cell w (bipos w x) : ℝ)) s) (fun k s => bicubicY2_u _ _ _)
      _ (off_knots hh h0 h1 hy))

/-- Strictly inside the field of view of `n` pixels centred on `c`. -/
def InFov (n : ℕ) (ps c x : ℝ) : Prop := |x - c| < (n : ℝ) * ps / 2

/-- On the sky, the centre of pixel `j` out of `n`. -/
noncomputable def skyCentre (n : ℕ) (ps c : ℝ) (j : ℕ) : ℝ :=
  c + ((j : ℝ) - ((n : ℝ) - 1) / 2) * ps

private theorem sky_chain {n : ℕ} (hn : 2 ≤ n) {ps c x g : ℝ} {G : ℝ → ℝ} (hps : 0 < ps)
    (hG : HasDerivAt G ((n : ℝ) / 2 * g) ((x - c) / ((n : ℝ) * ps) * 2)) :
    HasDerivAt (fun s => G ((s - c) / ((n : ℝ) * ps) * 2)) (g / ps) x := by
  have hn0 : (0 : ℝ) < n := by positivity
  have hd : HasDerivAt (fun s : ℝ => (s - c) / ((n : ℝ) * ps) * 2) (1 / ((n : ℝ) * ps) * 2) x :=
    (((hasDerivAt_id x).sub_const c).div_const _).mul_const 2
  have := hG.comp x hd
  refine this.congr_deriv ?_
  field_simp

private theorem fov_frame {n : ℕ} (hn : 2 ≤ n) {ps c x : ℝ} (hps : 0 < ps) (hx : InFov n ps c x) :
    -1 < (x - c) / ((n : ℝ) * ps) * 2 ∧ (x - c) / ((n : ℝ) * ps) * 2 < 1 := by
  have hn0 : (0 : ℝ) < n := by positivity
  have hp : 0 < (n : ℝ) * ps := mul_pos hn0 hps
  obtain ⟨h0, h1⟩ := abs_lt.mp hx
  rw [div_mul_eq_mul_div, lt_div_iff₀ hp, div_lt_iff₀ hp]
  constructor <;> linarith

private theorem sky_off {n : ℕ} (hn : 2 ≤ n) {ps c x : ℝ} (hps : 0 < ps)
    (hx : ∀ j < n, x ≠ skyCentre n ps c j) (j : ℕ) (hj : j < n) :
    (x - c) / ((n : ℝ) * ps) * 2 ≠ centre n j := by
  intro h
  have hn0 : (0 : ℝ) < n := by positivity
  apply hx j hj
  unfold skyCentre
  unfold centre at h
  field_simp at h
  linarith

/-- C11: inside the field of view the deflection of a pixelated potential is the gradient of its
potential, and off the rows and columns of pixel centres its convergence is half the divergence of
its deflection. -/
theorem C11_pixelated_potential {h w : ℕ} (hh : 2 ≤ h) (hw : 2 ≤ w) (P : PixPot h w ℝ)
    (hps : 0 < P.pixelscale) :
    ∃ ψ αx αy κ : ℝ → ℝ → ℝ,
      (∀ x y, P.potential x y = .ok (ψ x y)) ∧ (∀ x y, P.deflection x y = .ok (αx x y, αy x y)) ∧
      (∀ x y, P.convergence x y = .ok (κ x y)) ∧
      ∀ x y, InFov w P.pixelscale P.x0 x → InFov h P.pixelscale P.y0 y →
        HasDerivAt (fun s => ψ s y) (αx x y) x ∧ HasDerivAt (fun s => ψ x s) (αy x y) y ∧
        ((∀ j < w, x ≠ skyCentre w P.pixelscale P.x0 j) →
          (∀ i < h, y ≠ skyCentre h P.pixelscale P.y0 i) →
          ∃ a b, HasDerivAt (fun s => αx s y) a x ∧ HasDerivAt (fun s => αy x s) b y ∧
            κ x y = (a + b) / 2) := by
  obtain ⟨Y, Y1, Y2, Y12, Y11, Y22, hev, hx, hy⟩ := C11_derivatives hh hw P.map none none none
  let fx : ℝ → ℝ := fun x => (x - P.x0) / ((w : ℝ) * P.pixelscale) * 2
  let fy : ℝ → ℝ := fun y => (y - P.y0) / ((h : ℝ) * P.pixelscale) * 2
  refine ⟨fun x y => Y (fx x) (fy y), fun x y => Y1 (fx x) (fy y) / P.pixelscale,
    fun x y => Y2 (fx x) (fy y) / P.pixelscale,
    fun x y => (Y11 (fx x) (fy y) + Y22 (fx x) (fy y)) / (2 * P.pixelscale ^ 2), ?_, ?_, ?_, ?_⟩
  · intro x y
    simp only [PixPot.potential, PixPot.query, hev]; rfl
  · intro x y
    simp only [PixPot.deflection, PixPot.query, hev]; rfl
  · intro x y
    simp only [PixPot.convergence, PixPot.query, hev]; rfl
  · intro x y hix hiy
    obtain ⟨x0, x1⟩ := fov_frame hw hps hix
    obtain ⟨y0, y1⟩ := fov_frame hh hps hiy
    refine ⟨sky_chain hw hps (hx _ (fy y) x0 x1).1, sky_chain hh hps (hy (fx x) _ y0 y1).1, ?_⟩
    intro hox hoy
    refine ⟨_, _,
      (sky_chain hw hps ((hx _ (fy y) x0 x1).2.2 (sky_off hw hps hox))).div_const P.pixelscale,
      (sky_chain hh hps ((hy (fx x) _ y0 y1).2.2 (sky_off hh hps hoy))).div_const P.pixelscale, ?_⟩
    show (Y11 (fx x) (fy y) + Y22 (fx x) (fy y)) / (2 * P.pixelscale ^ 2) =
      (Y11 (fx x) (fy y) / P.pixelscale / P.pixelscale
        + Y22 (fx x) (fy y) / P.pixelscale / P.pixelscale) / 2
    field_simp

end analytic

section kernels

variable {K : Type*} [Field K] [LinearOrder K] [FloorRing K] [IsStrictOrderedRing K]

/-- C12, the full claim: without derivative maps a linear ramp is reproduced between the pixel
centres of the interior. -/
def BicubicRamp (K : Type*) [Field K] [LinearOrder K] [FloorRing K] : Prop :=
  ∀ (h w : ℕ), 4 ≤ h → 4 ≤ w → ∀ (a b c x y : K),
    1 ≤ pixCoord w x → pixCoord w x ≤ (w : K) - 2 → 1 ≤ pixCoord h y → pixCoord h y ≤ (h : K) - 2 →
    interpBicubic (h := h) (w := w) x y (fun i j => a + b * ((j : ℕ) : K) + c * ((i : ℕ) : K))
      none none none true true false
      = .ok [a + b * pixCoord w x + c * pixCoord h y, b, c]

/-- C12 is false: on the 4x4 image whose pixels equal their column index, the estimated gradient at
an interior pixel centre is (0, -1) instead of (1, 0), and the value a quarter of a pixel to the
right and up of it is 17/16 instead of 5/4. -/
theorem C12_fails :
    ¬ BicubicRamp ℚ ∧
    interpBicubic (h := 4) (w := 4) (-1 / 4 : ℚ) (-1 / 4) (fun _ j => ((j : ℕ) : ℚ))
      none none none true true false = .ok [1, 0, -1] ∧
    pixCoord 4 (-1 / 4 : ℚ) = 1 ∧
    interpBicubic (h := 4) (w := 4) (-1 / 8 : ℚ) (-1 / 8) (fun _ j => ((j : ℕ) : ℚ))
      none none none true false false = .ok [17 / 16] ∧
    pixCoord 4 (-1 / 8 : ℚ) = 5 / 4 := by
  have e : interpBicubic (h := 4) (w := 4) (-1 / 4 : ℚ) (-1 / 4) (fun _ j => ((j : ℕ) : ℚ))
      none none none true true false = .ok [1, 0, -1] := by decide +kernel
  refine ⟨?_, e, by norm_num [pixCoord], by decide +kernel, by norm_num [pixCoord]⟩
  intro hr
  have := hr 4 4 (by norm_num) (by norm_num) 0 1 0 (-1 / 4) (-1 / 4) (by norm_num [pixCoord])
    (by norm_num [pixCoord]) (by norm_num [pixCoord]) (by norm_num [pixCoord])
  simp only [zero_add, one_mul, zero_mul, add_zero] at this
  rw [e] at this
  revert this
  norm_num

/-- C12, what is computed instead: on an image quadratic in the pixel coordinates, at interior
pixels, the first map is minus the derivative along the rows (`y`), the second is minus the
derivative along the columns (`x`); the cross derivative is right. -/
theorem C12_kernels_partial {h w : ℕ} (a b c d e f : K) (i : Fin h) (j : Fin w)
    (hi0 : 0 < i.val) (hi1 : i.val + 1 < h) (hj0 : 0 < j.val) (hj1 : j.val + 1 < w) :
    ∃ m1 m2 m12, bicubicKernels (h := h) (w := w)
        (fun i j => a + b * ((j : ℕ) : K) + c * ((i : ℕ) : K) + d * ((j : ℕ) : K) ^ 2
          + e * ((i : ℕ) : K) * ((j : ℕ) : K) + f * ((i : ℕ) : K) ^ 2) 1 1 = .ok (m1, m2, m12) ∧
      m1 i j = -(c + e * ((j : ℕ) : K) + 2 * f * ((i : ℕ) : K)) ∧
      m2 i j = -(b + 2 * d * ((j : ℕ) : K) + e * ((i : ℕ) : K)) ∧
      m12 i j = e := by
  unfold bicubicKernels
  rw [dif_pos ⟨by omega, by omega⟩]
  refine ⟨_, _, _, rfl, ?_, ?_, ?_⟩
  · simp only
    rw [dif_neg (by omega), dif_neg (by omega)]
    push_cast [Nat.cast_sub hi0]
    field_simp
    ring
  · simp only
    rw [dif_neg (by omega), dif_neg (by omega)]
    push_cast [Nat.cast_sub hj0]
    field_simp
    ring
  · simp only
    rw [dif_neg (by omega)]
    push_cast [Nat.cast_sub hi0, Nat.cast_sub hj0]
    field_simp
    ring

/-- C12, a case that does hold: a constant image is reproduced everywhere, with zero derivatives. -/
theorem C12_constant_partial {h w : ℕ} (hh : 2 ≤ h) (hw : 2 ≤ w) (a x y : K) :
    interpBicubic (h := h) (w := w) x y (fun _ _ => a) none none none true true true
      = .ok [a, 0, 0, 0, 0, 0] := by
  have hm : resolveMaps (h := h) (w := w) (fun _ _ => a) none none none
      = .ok (fun _ _ => 0, fun _ _ => 0, fun _ _ => 0) := by
    unfold resolveMaps bicubicKernels
    rw [dif_pos ⟨hh, hw⟩]
    simp [bind, Except.bind, pure, Except.pure]
  rw [interpBicubic_eval hh hw x y _ none none none _ _ _ hm]
  obtain ⟨a0, a1⟩ := cell_bounds2 hw (bipos w x)
  obtain ⟨b0, b1⟩ := cell_bounds2 hh (bipos h y)
  have e : ∀ (v : K) (i j : ℤ), 0 ≤ i → i < h → 0 ≤ j → j < w →
      at2 (fun (_ : Fin h) (_ : Fin w) => v) i j = v := by
    intro v i j hi0 hi1 hj0 hj1
    unfold at2
    rw [wrap_nonneg _ _ hj0 hj1, wrap_nonneg _ _ hi0 hi1]
  have ec : ∀ v : K, corners (fun (_ : Fin h) (_ : Fin w) => v) (cell h (bipos h y))
      (cell w (bipos w x)) = [v, v, v, v] := by
    intro v
    unfold corners
    rw [e v _ _ b0 (by omega) a0 (by omega), e v _ _ b0 (by omega) (by omega) a1,
      e v _ _ (by omega) b1 (by omega) a1, e v _ _ (by omega) b1 a0 (by omega)]
  simp only [cellCoef, ec, if_true, List.cons_append, List.nil_append]
  congr 1
  simp [bicubicY, bicubicY1, bicubicY2, bicubicY12, bicubicY11, bicubicY22, bicubicCoef, BC,
    Finset.sum_range_succ]

end kernels

/-- A 2x2 image with arbitrary derivative maps: the corner pixel and the middle of the frame. -/
example : let Z : Fin 2 → Fin 2 → ℚ := fun i j => 10 * ((i : ℕ) : ℚ) + 3 * ((j : ℕ) : ℚ)
    let m1 : Fin 2 → Fin 2 → ℚ := fun i j => 1 + ((i : ℕ) : ℚ) * ((j : ℕ) : ℚ)
    let m2 : Fin 2 → Fin 2 → ℚ := fun i j => ((i : ℕ) : ℚ) - ((j : ℕ) : ℚ)
    (interpBicubic (centre 2 1) (centre 2 0) Z (some m1) (some m2) (some m1) true true false
      = .ok [3, 1, -1]) ∧
    (interpBicubic 0 0 Z (some m1) (some m2) (some m1) true false false = .ok [405 / 64]) := by
  decide +kernel

end Caustics

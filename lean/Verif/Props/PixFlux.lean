import Verif.Lemmas.PixFlux

/-! C86: the flux of a pixelated source. -/

open MeasureTheory Set

namespace Caustics

/-- Weight of pixel `j` of `n` in the integral of an interpolated row: one, an eighth more in the two
outermost pixels, an eighth less in the pixels next to them. -/
noncomputable def edgeWeight (n j : ℕ) : ℝ :=
  1 + ((if j = 0 then 1 else 0) + (if j + 1 = n then 1 else 0) - (if j = 1 then 1 else 0) - (if j + 2 = n then 1 else 0)) / 8

theorem hat_weight {n : ℕ} (hn : 2 ≤ n) (j : Fin n) :
    let f : ℤ → ℝ := fun i => if i = ((j : ℕ) : ℤ) then 1 else 0
    (∑ k ∈ Finset.range n, f k) + (f 0 - f 1 + (f ((n : ℤ) - 1) - f ((n : ℤ) - 2))) / 8 = edgeWeight n j := by
  intro f
  have h1 : ∑ k ∈ Finset.range n, f k = 1 := by
    rw [Finset.sum_eq_single (j : ℕ)]
    · simp [f]
    · intro k _ hk
      simp only [f]
      rw [if_neg (by exact_mod_cast hk)]
    · intro h; exact absurd (Finset.mem_range.2 j.isLt) h
  rw [h1]
  have e0 : f 0 = if (j : ℕ) = 0 then 1 else 0 := by
    simp only [f]; congr 1; apply propext; omega
  have e1 : f 1 = if (j : ℕ) = 1 then 1 else 0 := by
    simp only [f]; congr 1; apply propext; omega
  have e2 : f ((n : ℤ) - 1) = if (j : ℕ) + 1 = n then 1 else 0 := by
    simp only [f]; congr 1; apply propext; omega
  have e3 : f ((n : ℤ) - 2) = if (j : ℕ) + 2 = n then 1 else 0 := by
    simp only [f]; congr 1; apply propext; omega
  rw [e0, e1, e2, e3, edgeWeight]
  ring

/-- The interpolated image as a sum over its pixels. -/
theorem image_sum {h w : ℕ} (hh : 2 ≤ h) (hw : 2 ≤ w) (im : Fin h → Fin w → ℝ) {ps : ℝ} (hps : 0 < ps) (dx dy : ℝ) :
    interp2d im (dx / (ps * (w : ℝ)) * 2) (dy / (ps * (h : ℝ)) * 2) "linear" "zeros" = .ok (∑ i : Fin h, ∑ j : Fin w,
      im i j * (rowG w (fun k => if k = ((j : ℕ) : ℤ) then 1 else 0) (dx / ps + ((w : ℝ) - 1) / 2)
        * rowG h (fun k => if k = ((i : ℕ) : ℤ) then 1 else 0) (dy / ps + ((h : ℝ) - 1) / 2))) := by
  rw [interp2d_linear (by omega) (by omega) im _ _ "zeros" (by simp)]
  congr 1
  simp only [true_and, show ("zeros" = "clamp") = False by simp, if_false, toPix_eq,
    frame_pix hps (by omega : 1 ≤ w), frame_pix hps (by omega : 1 ≤ h)]
  have hoff : ∀ (n : ℕ) (d : ℝ), 1 ≤ n → (offFrame (d / (ps * (n : ℝ)) * 2) = true ↔
      (d / ps + ((n : ℝ) - 1) / 2 < -(1 / 2) ∨ (n : ℝ) - 1 / 2 < d / ps + ((n : ℝ) - 1) / 2)) := by
    intro n d hn
    have e : d / ps = d / (ps * n) * 2 * n / 2 := by
      have : (n : ℝ) ≠ 0 := by exact_mod_cast (by omega : n ≠ 0)
      field_simp
    have hn' : (0 : ℝ) < n := by exact_mod_cast hn
    rw [e]
    generalize d / (ps * n) * 2 = t
    unfold offFrame
    rw [Bool.or_eq_true, decide_eq_true_iff, decide_eq_true_iff]
    constructor
    · rintro (h | h)
      · left; nlinarith
      · right; nlinarith
    · rintro (h | h)
      · left; nlinarith
      · right; nlinarith
  have hx := hoff w dx (by omega)
  have hy := hoff h dy (by omega)
  have hrow : ∀ i : Fin h, ∀ p, rowG w (fun j => wrap 0 (wrap (fun _ => 0) im ((i : ℕ) : ℤ)) j) p
      = ∑ j : Fin w, im i j * rowG w (fun k => if k = ((j : ℕ) : ℤ) then 1 else 0) p := by
    intro i p
    rw [rowG_sum hw]
    refine Finset.sum_congr rfl fun j _ => ?_
    rw [wrap_nat _ _ (i : ℕ) i.isLt, wrap_nat _ _ (j : ℕ) j.isLt]
  have key : (if (offFrame (dy / (ps * (h : ℝ)) * 2) || offFrame (dx / (ps * (w : ℝ)) * 2)) = true then (0 : ℝ) else
        lin h (dy / ps + ((h : ℝ) - 1) / 2) fun i => lin w (dx / ps + ((w : ℝ) - 1) / 2) fun j => wrap 0 (wrap (fun _ => 0) im i) j)
      = rowG h (fun i => rowG w (fun j => wrap 0 (wrap (fun _ => 0) im i) j) (dx / ps + ((w : ℝ) - 1) / 2))
        (dy / ps + ((h : ℝ) - 1) / 2) := by
    unfold rowG
    have hb : (offFrame (dy / (ps * (h : ℝ)) * 2) || offFrame (dx / (ps * (w : ℝ)) * 2)) = true ↔
        (dy / ps + ((h : ℝ) - 1) / 2 < -(1 / 2) ∨ (h : ℝ) - 1 / 2 < dy / ps + ((h : ℝ) - 1) / 2) ∨
        (dx / ps + ((w : ℝ) - 1) / 2 < -(1 / 2) ∨ (w : ℝ) - 1 / 2 < dx / ps + ((w : ℝ) - 1) / 2) := by
      rw [Bool.or_eq_true, hx, hy]
    by_cases c1 : dy / ps + ((h : ℝ) - 1) / 2 < -(1 / 2) ∨ (h : ℝ) - 1 / 2 < dy / ps + ((h : ℝ) - 1) / 2
    · rw [if_pos (hb.2 (Or.inl c1)), if_pos c1]
    · by_cases c2 : dx / ps + ((w : ℝ) - 1) / 2 < -(1 / 2) ∨ (w : ℝ) - 1 / 2 < dx / ps + ((w : ℝ) - 1) / 2
      · rw [if_pos (hb.2 (Or.inr c2)), if_neg c1]
        simp only [if_pos c2]
        unfold lin
        ring
      · rw [if_neg (fun hc => by rcases hb.1 hc with hc | hc <;> contradiction), if_neg c1]
        simp only [if_neg c2]
  rw [key, rowG_sum hh]
  refine Finset.sum_congr rfl fun i _ => ?_
  rw [hrow, Finset.sum_mul]
  refine Finset.sum_congr rfl fun j _ => ?_
  ring

theorem image_flux {h w : ℕ} (hh : 2 ≤ h) (hw : 2 ≤ w) (im : Fin h → Fin w → ℝ) {ps : ℝ} (hps : 0 < ps) (x0 y0 : ℝ) :
    let B := fun p : ℝ × ℝ => ∑ i : Fin h, ∑ j : Fin w,
      im i j * (rowG w (fun k => if k = ((j : ℕ) : ℤ) then 1 else 0) ((p.1 - x0) / ps + ((w : ℝ) - 1) / 2)
        * rowG h (fun k => if k = ((i : ℕ) : ℤ) then 1 else 0) ((p.2 - y0) / ps + ((h : ℝ) - 1) / 2))
    Integrable B ∧ ∫ p, B p = ps ^ 2 * ∑ i : Fin h, ∑ j : Fin w, edgeWeight h i * edgeWeight w j * im i j := by
  intro B
  have hij : ∀ (i : Fin h) (j : Fin w), Integrable fun p : ℝ × ℝ =>
      im i j * (rowG w (fun k => if k = ((j : ℕ) : ℤ) then 1 else 0) ((p.1 - x0) / ps + ((w : ℝ) - 1) / 2)
        * rowG h (fun k => if k = ((i : ℕ) : ℤ) then 1 else 0) ((p.2 - y0) / ps + ((h : ℝ) - 1) / 2)) := by
    intro i j
    exact ((row_integral hw _ hps x0 _).1.mul_prod (row_integral hh _ hps y0 _).1).const_mul _
  constructor
  · exact integrable_finset_sum _ fun i _ => integrable_finset_sum _ fun j _ => hij i j
  · rw [integral_finset_sum _ fun i _ => integrable_finset_sum _ fun j _ => hij i j, Finset.mul_sum]
    refine Finset.sum_congr rfl fun i _ => ?_
    rw [integral_finset_sum _ fun j _ => hij i j, Finset.mul_sum]
    refine Finset.sum_congr rfl fun j _ => ?_
    rw [integral_const_mul, Measure.volume_eq_prod,
      integral_prod_mul (fun x => rowG w (fun k => if k = ((j : ℕ) : ℤ) then 1 else 0) ((x - x0) / ps + ((w : ℝ) - 1) / 2))
        (fun y => rowG h (fun k => if k = ((i : ℕ) : ℤ) then 1 else 0) ((y - y0) / ps + ((h : ℝ) - 1) / 2)),
      (row_integral hw _ hps x0 _).2, (row_integral hh _ hps y0 _).2, hat_weight hw j, hat_weight hh i]
    ring

/-- The flux of a pixelated source with at least two pixels along each axis: pixel area times scale
times the sum of its pixels, weighted near the border. -/
theorem C86_flux {h w : ℕ} (hh : 2 ≤ h) (hw : 2 ≤ w) (im : Fin h → Fin w → ℝ) (x0 y0 ps scale : ℝ) (hps : 0 < ps) :
    ∃ B : ℝ × ℝ → ℝ, (∀ p, pixelatedBrightness (.d2 im) x0 y0 ps scale p.1 p.2 = .ok (B p)) ∧ Integrable B ∧
      ∫ p, B p = ps ^ 2 * scale * ∑ i : Fin h, ∑ j : Fin w, edgeWeight h i * edgeWeight w j * im i j := by
  refine ⟨_, fun p => image_sum hh hw (fun i j => im i j * scale) hps (p.1 - x0) (p.2 - y0), ?_⟩
  obtain ⟨h1, h2⟩ := image_flux hh hw (fun i j => im i j * scale) hps x0 y0
  refine ⟨h1, h2.trans ?_⟩
  rw [mul_assoc]
  congr 1
  rw [Finset.mul_sum]
  refine Finset.sum_congr rfl fun i _ => ?_
  rw [Finset.mul_sum]
  exact Finset.sum_congr rfl fun j _ => by ring

/-- The claim: the flux of a pixelated source is pixel area times scale times the sum of its pixels. -/
def C86_statement : Prop :=
  ∀ (h w : ℕ) (im : Fin h → Fin w → ℝ) (x0 y0 ps scale : ℝ), 2 ≤ h → 2 ≤ w → 0 < ps → 0 ≤ scale →
    (∀ i j, 0 ≤ im i j) →
    ∀ B : ℝ × ℝ → ℝ, (∀ p, pixelatedBrightness (.d2 im) x0 y0 ps scale p.1 p.2 = .ok (B p)) →
      ∫ p, B p = ps ^ 2 * scale * ∑ i : Fin h, ∑ j : Fin w, im i j

/-- It fails: an image of 3 by 3 pixels whose central pixel alone is lit has 9/16 of the flux. -/
theorem C86_fails : ¬ C86_statement := by
  intro hall
  obtain ⟨B, hB, _, hI⟩ := C86_flux (h := 3) (w := 3) (by norm_num) (by norm_num)
    (fun i j => if i = 1 ∧ j = 1 then 1 else 0) 0 0 1 1 one_pos
  have := hall 3 3 (fun i j => if i = 1 ∧ j = 1 then 1 else 0) 0 0 1 1 (by norm_num) (by norm_num) one_pos zero_le_one
    (fun i j => by split_ifs <;> norm_num) B hB
  rw [this] at hI
  simp only [Fin.sum_univ_three, edgeWeight] at hI
  norm_num [Fin.ext_iff] at hI

/-- It holds for every image that is dark in its two outermost pixels on every side. -/
theorem C86_dark_border_partial {h w : ℕ} (hh : 2 ≤ h) (hw : 2 ≤ w) (im : Fin h → Fin w → ℝ) (x0 y0 ps scale : ℝ)
    (hps : 0 < ps) (hdark : ∀ (i : Fin h) (j : Fin w), ((i : ℕ) < 2 ∨ h < (i : ℕ) + 3 ∨ (j : ℕ) < 2 ∨ w < (j : ℕ) + 3) → im i j = 0) :
    ∃ B : ℝ × ℝ → ℝ, (∀ p, pixelatedBrightness (.d2 im) x0 y0 ps scale p.1 p.2 = .ok (B p)) ∧ Integrable B ∧
      ∫ p, B p = ps ^ 2 * scale * ∑ i : Fin h, ∑ j : Fin w, im i j := by
  obtain ⟨B, hB, hi, hI⟩ := C86_flux hh hw im x0 y0 ps scale hps
  refine ⟨B, hB, hi, hI.trans ?_⟩
  congr 1
  refine Finset.sum_congr rfl fun i _ => Finset.sum_congr rfl fun j _ => ?_
  by_cases hd : (i : ℕ) < 2 ∨ h < (i : ℕ) + 3 ∨ (j : ℕ) < 2 ∨ w < (j : ℕ) + 3
  · rw [hdark i j hd, mul_zero]
  · push Not at hd
    have e : ∀ n k : ℕ, 2 ≤ k → k + 3 ≤ n → edgeWeight n k = 1 := by
      intro n k h1 h2
      unfold edgeWeight
      rw [if_neg (by omega), if_neg (by omega), if_neg (by omega), if_neg (by omega)]
      norm_num
    rw [e h i (by omega) (by omega), e w j (by omega) (by omega)]
    ring

theorem edgeWeight_bounds {n : ℕ} (hn : 2 ≤ n) (j : ℕ) : 3 / 4 ≤ edgeWeight n j ∧ edgeWeight n j ≤ 9 / 8 := by
  unfold edgeWeight
  split_ifs <;> first | omega | constructor <;> norm_num

/-- For every non-negative image it holds up to a factor between 9/16 and 81/64. -/
theorem C86_bounds_partial {h w : ℕ} (hh : 2 ≤ h) (hw : 2 ≤ w) (im : Fin h → Fin w → ℝ) (x0 y0 ps scale : ℝ)
    (hps : 0 < ps) (hs : 0 ≤ scale) (him : ∀ i j, 0 ≤ im i j) :
    ∃ B : ℝ × ℝ → ℝ, (∀ p, pixelatedBrightness (.d2 im) x0 y0 ps scale p.1 p.2 = .ok (B p)) ∧ Integrable B ∧
      9 / 16 * (ps ^ 2 * scale * ∑ i : Fin h, ∑ j : Fin w, im i j) ≤ ∫ p, B p ∧
      ∫ p, B p ≤ 81 / 64 * (ps ^ 2 * scale * ∑ i : Fin h, ∑ j : Fin w, im i j) := by
  obtain ⟨B, hB, hi, hI⟩ := C86_flux hh hw im x0 y0 ps scale hps
  refine ⟨B, hB, hi, ?_⟩
  rw [hI]
  have h1 : 9 / 16 * ∑ i : Fin h, ∑ j : Fin w, im i j ≤ ∑ i : Fin h, ∑ j : Fin w, edgeWeight h i * edgeWeight w j * im i j := by
    rw [Finset.mul_sum]
    refine Finset.sum_le_sum fun i _ => ?_
    rw [Finset.mul_sum]
    refine Finset.sum_le_sum fun j _ => mul_le_mul_of_nonneg_right ?_ (him i j)
    nlinarith [edgeWeight_bounds hh i, edgeWeight_bounds hw j]
  have h2 : ∑ i : Fin h, ∑ j : Fin w, edgeWeight h i * edgeWeight w j * im i j ≤ 81 / 64 * ∑ i : Fin h, ∑ j : Fin w, im i j := by
    rw [Finset.mul_sum]
    refine Finset.sum_le_sum fun i _ => ?_
    rw [Finset.mul_sum]
    refine Finset.sum_le_sum fun j _ => mul_le_mul_of_nonneg_right ?_ (him i j)
    nlinarith [edgeWeight_bounds hh i, edgeWeight_bounds hw j]
  have hc : 0 ≤ ps ^ 2 * scale := by positivity
  constructor
  · nlinarith [mul_le_mul_of_nonneg_left h1 hc]
  · nlinarith [mul_le_mul_of_nonneg_left h2 hc]

/-- The light curve of a time-dependent source is linear between the times of its frames (frame `k` is at
`(k + 1/2) / d` of the duration), with the flux of each frame as that of a pixelated source. -/
theorem C86_light_curve {d h w : ℕ} (hh : 2 ≤ h) (hw : 2 ≤ w) (cu : Fin d → Fin h → Fin w → ℝ)
    (x0 y0 ps tEnd scale : ℝ) (hps : 0 < ps) (ht : 0 < tEnd) (k : ℕ) (hk : k + 1 < d) (s : ℝ) (hs0 : 0 ≤ s) (hs1 : s ≤ 1) :
    let F := fun k : Fin d => ps ^ 2 * scale * ∑ i : Fin h, ∑ j : Fin w, edgeWeight h i * edgeWeight w j * cu k i j
    ∃ B : ℝ × ℝ → ℝ, (∀ p, pixelatedTimeBrightness (.d3 cu) x0 y0 ps tEnd scale p.1 p.2 (tEnd * ((k + 1 / 2 + s) / d)) = .ok (B p)) ∧
      Integrable B ∧ ∫ p, B p = (1 - s) * F ⟨k, by omega⟩ + s * F ⟨k + 1, hk⟩ := by
  intro F
  obtain ⟨B0, hB0, hi0, hI0⟩ := C86_flux hh hw (cu ⟨k, by omega⟩) x0 y0 ps scale hps
  obtain ⟨B1, hB1, hi1, hI1⟩ := C86_flux hh hw (cu ⟨k + 1, hk⟩) x0 y0 ps scale hps
  refine ⟨fun p => (1 - s) * B0 p + s * B1 p, ?_, (hi0.const_mul _).add (hi1.const_mul _), ?_⟩
  · intro p
    have hd' : (0 : ℝ) < d := by exact_mod_cast (by omega : 0 < d)
    have hk' : (k : ℝ) + 2 ≤ d := by exact_mod_cast (by omega : k + 2 ≤ d)
    have h0 := hB0 p
    have h1 := hB1 p
    simp only [pixelatedBrightness] at h0 h1
    rw [interp2d_linear (by omega) (by omega) _ _ _ "zeros" (by simp)] at h0 h1
    simp only [pixelatedTimeBrightness]
    rw [interp3d_linear (by omega) (by omega) (by omega) _ _ _ _ "zeros" (by simp)]
    have et : (tEnd * ((k + 1 / 2 + s) / d) - tEnd / 2) / tEnd * 2 = 2 * (k + 1 / 2 + s) / d - 1 := by
      field_simp
    rw [et]
    have hon : offFrame (2 * ((k : ℝ) + 1 / 2 + s) / d - 1) = false := by
      apply onFrame
      · have : (0 : ℝ) ≤ 2 * ((k : ℝ) + 1 / 2 + s) / d := by positivity
        linarith
      · have : 2 * ((k : ℝ) + 1 / 2 + s) / d ≤ 2 := by
          rw [div_le_iff₀ hd']; linarith
        linarith
    have hpix : toPix (2 * ((k : ℝ) + 1 / 2 + s) / d - 1) d = k + s := by
      unfold toPix
      field_simp
      ring
    have h0' := Except.ok.inj h0
    have h1' := Except.ok.inj h1
    rw [← h0', ← h1', hon, hpix, Bool.or_false]
    congr 1
    simp only [true_and, show ("zeros" = "clamp") = False by simp, if_false]
    split_ifs
    · ring
    · rw [lin_cell (j := (k : ℤ)) (by omega) (by omega) (by push_cast; linarith) (by push_cast; linarith)]
      have ek : wrap (fun _ _ => (0 : ℝ)) (fun k i j => cu k i j * scale) (k : ℤ) = fun i j => cu ⟨k, by omega⟩ i j * scale :=
        wrap_nat _ _ k (by omega)
      have ek1 : wrap (fun _ _ => (0 : ℝ)) (fun k i j => cu k i j * scale) ((k : ℤ) + 1) = fun i j => cu ⟨k + 1, hk⟩ i j * scale := by
        have := wrap_nat (fun _ _ => (0 : ℝ)) (fun k i j => cu k i j * scale) (k + 1) hk
        push_cast at this
        exact this
      rw [ek, ek1]
      push_cast
      ring
  · rw [integral_add (hi0.const_mul _) (hi1.const_mul _), integral_const_mul, integral_const_mul, hI0, hI1]

/-- An image of 5 by 5 pixels of size 2 with the value 3 in its centre has flux 12, wherever it is. -/
example (x0 y0 : ℝ) : ∃ B : ℝ × ℝ → ℝ,
    (∀ p, pixelatedBrightness (.d2 fun (i : Fin 5) (j : Fin 5) => if i = 2 ∧ j = 2 then (3 : ℝ) else 0) x0 y0 2 1 p.1 p.2 = .ok (B p)) ∧
    Integrable B ∧ ∫ p, B p = 12 := by
  obtain ⟨B, h1, h2, h3⟩ := C86_dark_border_partial (h := 5) (w := 5) (by norm_num) (by norm_num)
    (fun i j => if i = 2 ∧ j = 2 then (3 : ℝ) else 0) x0 y0 2 1 (by norm_num) (by
      intro i j hij
      rw [if_neg]
      rintro ⟨rfl, rfl⟩
      revert hij
      simp)
  refine ⟨B, h1, h2, h3.trans ?_⟩
  simp only [Fin.sum_univ_five]
  norm_num [Fin.ext_iff]

/-- The four by four image with one corner lit has 81/64 of the flux of that pixel. -/
example : ∃ B : ℝ × ℝ → ℝ,
    (∀ p, pixelatedBrightness (.d2 fun (i : Fin 4) (j : Fin 4) => if i = 0 ∧ j = 3 then (1 : ℝ) else 0) 0 0 1 1 p.1 p.2 = .ok (B p)) ∧
    Integrable B ∧ ∫ p, B p = 81 / 64 := by
  obtain ⟨B, h1, h2, h3⟩ := C86_flux (h := 4) (w := 4) (by norm_num) (by norm_num)
    (fun i j => if i = 0 ∧ j = 3 then (1 : ℝ) else 0) 0 0 1 1 (by norm_num)
  refine ⟨B, h1, h2, h3.trans ?_⟩
  simp only [Fin.sum_univ_four, edgeWeight]
  norm_num [Fin.ext_iff]

/-- A 2 by 2 source that brightens from 1 to 2 per pixel: flux 6 half way between its two frames. -/
example : ∃ B : ℝ × ℝ → ℝ,
    (∀ p, pixelatedTimeBrightness (.d3 fun (k : Fin 2) (_ : Fin 2) (_ : Fin 2) => if k = 0 then (1 : ℝ) else 2) 0 0 1 8 1 p.1 p.2
      (8 * (((0 : ℕ) + 1 / 2 + 1 / 2) / (2 : ℕ))) = .ok (B p)) ∧ Integrable B ∧ ∫ p, B p = 6 := by
  obtain ⟨B, h1, h2, h3⟩ := C86_light_curve (d := 2) (h := 2) (w := 2) (by norm_num) (by norm_num)
    (fun k _ _ => if k = 0 then (1 : ℝ) else 2) 0 0 1 8 1 (by norm_num) (by norm_num) 0 (by norm_num) (1 / 2) (by norm_num) (by norm_num)
  refine ⟨B, h1, h2, h3.trans ?_⟩
  simp only [Fin.sum_univ_two, edgeWeight]
  norm_num [Fin.ext_iff]

end Caustics

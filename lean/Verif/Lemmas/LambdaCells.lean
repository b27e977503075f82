import Verif.Lemmas.LambdaHelper
import Verif.Lemmas.Interp1d
import Verif.Props.Interp1d

/-! The 499 cells of the table of FlatLambdaCDM and the cubic used in each. -/

open Real

namespace Caustics

/-- Abscissa `i` of the table. -/
noncomputable def gridX (i : ℕ) : ℝ := (10 : ℝ) ^ (-3 + (i : ℝ) * (4 / 499))

/-- Ratio of successive abscissae. -/
noncomputable def lamr : ℝ := (10 : ℝ) ^ (4 / 499 : ℝ)

theorem lamr_gt : 1 < lamr := one_lt_rpow (by norm_num) (by norm_num)

theorem lamr_lt : lamr < 1.0187 := by
  have h : lamr ^ 499 = 10 ^ 4 := by
    rw [lamr, ← rpow_natCast, ← rpow_mul (by norm_num)]
    norm_num
  by_contra hc
  have := pow_le_pow_left₀ (by norm_num) (not_lt.1 hc) 499
  rw [h, show 499 = 250 + 249 by norm_num, pow_add] at this
  have h1 : (102 : ℝ) < 1.0187 ^ 250 := by norm_num
  have h2 : (100 : ℝ) < 1.0187 ^ 249 := by norm_num
  have h3 := mul_lt_mul h1 h2.le (by norm_num) (by norm_num)
  linarith

theorem gridX_pos (i : ℕ) : 0 < gridX i := rpow_pos_of_pos (by norm_num) _

theorem gridX_succ (i : ℕ) : gridX (i + 1) = lamr * gridX i := by
  rw [gridX, gridX, lamr, ← rpow_add (by norm_num)]
  congr 1
  push_cast
  ring

theorem gridX_zero : gridX 0 = 1 / 1000 := by
  rw [gridX]
  norm_num

theorem gridX_last : gridX 499 = 10 := by
  rw [gridX]
  norm_num

theorem gridX_lt {i j : ℕ} (h : i < j) : gridX i < gridX j := by
  unfold gridX
  apply rpow_lt_rpow_of_exponent_lt (by norm_num)
  have : (i : ℝ) < j := by exact_mod_cast h
  linarith

theorem lambdaGrid_length : lambdaGrid.length = 500 := by simp [lambdaGrid, linspace]

theorem lambdaTable_length : lambdaTable.length = 500 := by simp [lambdaTable, lambdaGrid_length]

theorem lambdaGrid_get (i : ℕ) (h : i < lambdaGrid.length) : lambdaGrid[i] = gridX i := by
  simp only [lambdaGrid, linspace, List.getElem_map, List.getElem_range, gridX]
  norm_num

theorem lambdaTable_get (i : ℕ) (h : i < lambdaTable.length) : lambdaTable[i] = lamH (gridX i) := by
  simp only [lambdaTable, List.getElem_map, lambdaGrid_get]
  exact hyp2f1_eq (gridX_pos i).le

theorem lambda_table : Table lambdaGrid lambdaTable where
  len := by rw [lambdaGrid_length, lambdaTable_length]
  two := by rw [lambdaGrid_length]; norm_num
  sorted := by
    rw [List.pairwise_iff_getElem]
    intro i j hi hj h
    rw [lambdaGrid_get, lambdaGrid_get]
    exact gridX_lt h

/-- Slope of the chord over cell `j`. -/
noncomputable def lamS (j : ℕ) : ℝ := (lamH (gridX (j + 1)) - lamH (gridX j)) / (gridX (j + 1) - gridX j)

theorem lambda_slopeAt (j : ℕ) (h : j < 499) : slopeAt lambdaGrid lambdaTable j = lamS j := by
  have h1 : j + 1 < lambdaGrid.length := by rw [lambdaGrid_length]; omega
  have h2 : j + 1 < lambdaTable.length := by rw [lambdaTable_length]; omega
  simp only [slopeAt, lamS, List.getD_eq_getElem?_getD, List.getElem?_eq_getElem h1, List.getElem?_eq_getElem h2,
    List.getElem?_eq_getElem (Nat.lt_of_succ_lt h1), List.getElem?_eq_getElem (Nat.lt_of_succ_lt h2), Option.getD_some,
    lambdaGrid_get, lambdaTable_get]

/-- The derivative prescribed at knot `i`. -/
noncomputable def lamM (i : ℕ) : ℝ := if i = 0 then lamS 0 else if i = 499 then lamS 498 else (lamS i + lamS (i - 1)) / 2

theorem lambda_knotTangent (i : ℕ) (h : i < 500) : knotTangent lambdaGrid lambdaTable i = lamM i := by
  simp only [knotTangent, tangentAt, lamM, lambdaGrid_length]
  split_ifs with h0 h1
  · exact lambda_slopeAt 0 (by norm_num)
  · exact lambda_slopeAt 498 (by norm_num)
  · rw [lambda_slopeAt i (by omega), lambda_slopeAt (i - 1) (by omega)]

/-- The cubic of cell `j`. -/
noncomputable def lamP (j : ℕ) (v : ℝ) : ℝ :=
  let t := (v - gridX j) / (gridX (j + 1) - gridX j)
  lamH (gridX j) + (gridX (j + 1) - gridX j) *
    (lamS j * t + (lamM j - lamS j) * (t * (1 - t) ^ 2) + (lamS j - lamM (j + 1)) * (t ^ 2 * (1 - t)))

theorem lamP_eq (j : ℕ) (v : ℝ) :
    hermite (gridX j) (gridX (j + 1)) (lamH (gridX j)) (lamH (gridX (j + 1))) (lamM j) (lamM (j + 1)) v = lamP j v := by
  have hd : gridX (j + 1) - gridX j ≠ 0 := (sub_pos.2 (gridX_lt (Nat.lt_succ_self j))).ne'
  have hS : lamH (gridX (j + 1)) = lamH (gridX j) + lamS j * (gridX (j + 1) - gridX j) := by
    rw [lamS, div_mul_cancel₀ _ hd]; ring
  simp only [hermite, hPoly, lamP]
  rw [hS]
  generalize (v - gridX j) / (gridX (j + 1) - gridX j) = t
  ring

/-- Which cubic is used. -/
theorem lambdaHelper_cell {v : ℝ} (hv : gridX 0 < v) :
    ∃ j, j ≤ 498 ∧ gridX j < v ∧ (j < 498 → v ≤ gridX (j + 1)) ∧ lambdaHelper v = .ok (lamP j v) := by
  obtain ⟨k, hk⟩ : ∃ k, searchsorted lambdaGrid.dropLast v = k := ⟨_, rfl⟩
  have hl : lambdaGrid.dropLast.length = 499 := by rw [List.length_dropLast, lambdaGrid_length]
  have hsort : lambdaGrid.dropLast.Pairwise (· < ·) := lambda_table.sorted.sublist (List.dropLast_sublist _)
  have hspec : ∀ i, i < 499 → (i < k ↔ gridX i < v) := by
    intro i hi
    have := searchsorted_spec lambdaGrid.dropLast hsort v i (by omega)
    rwa [hk, List.getElem_dropLast, lambdaGrid_get] at this
  have hk0 : 0 < k := (hspec 0 (by norm_num)).2 hv
  have hk1 : k ≤ 499 := by
    have := searchsorted_le lambdaGrid.dropLast v
    omega
  obtain ⟨hk', hlo', he⟩ := interp1d_eval lambdaGrid lambdaTable lambda_table.len lambda_table.two v "extrapolate" (k - 1) k hk
    (by rw [if_neg hk0.ne'])
  refine ⟨k - 1, by omega, (hspec (k - 1) (by omega)).1 (by omega), fun h => ?_, ?_⟩
  · have : ¬gridX k < v := fun hc => by
      have := (hspec k (by omega)).2 hc
      omega
    rw [Nat.sub_add_cancel hk0]
    exact not_lt.1 this
  · unfold lambdaHelper
    rw [he]
    simp only [String.reduceEq, if_false, lambdaGrid_get, lambdaTable_get]
    rw [lambda_knotTangent _ (by omega), lambda_knotTangent _ (by omega)]
    have := lamP_eq (k - 1) v
    rw [Nat.sub_add_cancel hk0] at this
    rw [this]

theorem lambdaHelper_first : lambdaHelper (gridX 0) = .ok (lamH (gridX 0)) := by
  have h : 0 < lambdaGrid.length := by rw [lambdaGrid_length]; norm_num
  have := C08_knots lambdaGrid lambdaTable lambda_table "extrapolate" 0 h
  rw [lambdaGrid_get, lambdaTable_get] at this
  exact this

/-! ### Sizes -/

/-- The chord slope lies between the values of the integrand at the ends. -/
theorem lamS_bounds (j : ℕ) : lamg (gridX (j + 1)) ≤ lamS j ∧ lamS j ≤ lamg (gridX j) := by
  have hlt := gridX_lt (Nat.lt_succ_self j)
  have hd := sub_pos.2 hlt
  have := lamH_bounds (gridX_pos j).le hlt.le
  unfold lamS
  exact ⟨(le_div_iff₀ hd).2 this.1, (div_le_iff₀ hd).2 this.2⟩

theorem lamS_antitone (j : ℕ) : lamS (j + 1) ≤ lamS j := (lamS_bounds (j + 1)).2.trans (lamS_bounds j).1

theorem lamS_strictAnti (j : ℕ) : lamS (j + 1) < lamS j := by
  have hlt := gridX_lt (Nat.lt_succ_self j)
  have hd := sub_pos.2 hlt
  obtain ⟨c, h1, h2, e⟩ := lamH_mean (gridX_pos j).le hlt
  have : lamS j = lamg c := by rw [lamS, e, mul_div_assoc, div_self hd.ne', mul_one]
  rw [this]
  exact lt_of_le_of_lt (lamS_bounds (j + 1)).2 (lamg_strictAnti ((gridX_pos j).le.trans h1.le) h2)

theorem lamS_pos (j : ℕ) : 0 < lamS j := lt_of_lt_of_le (lamg_pos (gridX_pos _).le) (lamS_bounds j).1

/-- Spread of the integrand over a cell and its two neighbours. -/
noncomputable def lamD (j : ℕ) : ℝ := lamg (gridX j / lamr) - lamg (lamr ^ 2 * gridX j)

theorem lamM_bounds (j : ℕ) (_hj : j ≤ 498) :
    0 ≤ lamM j - lamS j ∧ lamM j - lamS j ≤ lamD j / 2 ∧ 0 ≤ lamS j - lamM (j + 1) ∧ lamS j - lamM (j + 1) ≤ lamD j / 2 := by
  have hr := lamr_gt
  have hr0 : 0 < lamr := by linarith
  have hX := gridX_pos j
  have g1 : lamg (gridX j) ≤ lamg (gridX j / lamr) := by
    apply lamg_antitone (by positivity)
    rw [div_le_iff₀ hr0]
    nlinarith
  have e2 : gridX (j + 2) = lamr ^ 2 * gridX j := by rw [gridX_succ, gridX_succ]; ring
  have g2 : lamg (lamr ^ 2 * gridX j) ≤ lamg (gridX (j + 1)) := by
    rw [← e2]
    exact lamg_antitone (gridX_pos _).le (gridX_lt (Nat.lt_succ_self _)).le
  have b0 := lamS_bounds j
  have hD : 0 ≤ lamD j := by unfold lamD; linarith [b0.1, b0.2]
  have hprev : 0 < j → lamS j ≤ lamS (j - 1) ∧ lamS (j - 1) ≤ lamg (gridX j / lamr) := by
    intro h0
    obtain ⟨i, rfl⟩ : ∃ i, j = i + 1 := ⟨j - 1, by omega⟩
    rw [Nat.add_sub_cancel]
    refine ⟨lamS_antitone i, ?_⟩
    rw [gridX_succ, mul_div_cancel_left₀ _ hr0.ne']
    exact (lamS_bounds i).2
  have hnext : lamg (lamr ^ 2 * gridX j) ≤ lamS (j + 1) := by rw [← e2]; exact (lamS_bounds (j + 1)).1
  have hnext' := lamS_antitone j
  have hm0 : 0 ≤ lamM j - lamS j ∧ lamM j - lamS j ≤ lamD j / 2 := by
    unfold lamM
    split_ifs with h0 h1
    · subst h0; constructor <;> linarith
    · omega
    · have := hprev (by omega)
      unfold lamD
      constructor <;> linarith
  have hm1 : 0 ≤ lamS j - lamM (j + 1) ∧ lamS j - lamM (j + 1) ≤ lamD j / 2 := by
    unfold lamM
    rw [if_neg (by omega), Nat.add_sub_cancel]
    split_ifs with h1
    · have : j = 498 := by omega
      subst this
      constructor <;> linarith
    · unfold lamD
      constructor <;> linarith
  exact ⟨hm0.1, hm0.2, hm1.1, hm1.2⟩

/-- The error is at most a quarter of width times spread. -/
theorem lamP_error (j : ℕ) (hj : j ≤ 498) {v : ℝ} (h1 : gridX j ≤ v) (h2 : v ≤ gridX (j + 1)) :
    |lamP j v - lamH v| ≤ (gridX (j + 1) - gridX j) * lamD j / 4 := by
  have hr := lamr_gt
  have hr0 : 0 < lamr := by linarith
  have hX := gridX_pos j
  obtain ⟨a1, a2, a3, a4⟩ := lamM_bounds j hj
  have hlt := gridX_lt (Nat.lt_succ_self j)
  have hd := sub_pos.2 hlt
  have hD : 0 ≤ lamD j := by linarith
  rcases h1.eq_or_lt with rfl | h1
  · have : lamP j (gridX j) = lamH (gridX j) := by simp [lamP]
    rw [this, sub_self, abs_zero]
    positivity
  rcases h2.eq_or_lt with rfl | h2
  · have : lamP j (gridX (j + 1)) = lamH (gridX (j + 1)) := by
      simp only [lamP, div_self hd.ne']
      rw [lamS]
      field_simp
      ring
    rw [this, sub_self, abs_zero]
    positivity
  obtain ⟨c1, p1, p2, e1⟩ := lamH_mean hX.le h1
  obtain ⟨c2, q1, q2, e2⟩ := lamH_mean (hX.le.trans h1.le) h2
  set d := gridX (j + 1) - gridX j with hdd
  set t := (v - gridX j) / d with ht
  have hvt : v - gridX j = d * t := by rw [ht]; field_simp
  have hvt' : gridX (j + 1) - v = d * (1 - t) := by rw [mul_sub, ← hvt, hdd]; ring
  have ht0 : 0 < t := by rw [ht]; exact div_pos (by linarith) hd
  have ht1 : t < 1 := by rw [ht, div_lt_one hd]; linarith
  have hS : lamS j = t * lamg c1 + (1 - t) * lamg c2 := by
    rw [lamS, ← hdd]
    rw [div_eq_iff hd.ne']
    rw [hvt] at e1
    rw [hvt'] at e2
    linear_combination e1 + e2
  have hg : 0 ≤ lamg c1 - lamg c2 ∧ lamg c1 - lamg c2 ≤ lamD j := by
    have s1 : lamg c2 ≤ lamg c1 := lamg_antitone (hX.le.trans p1.le) (by linarith)
    have s2 : lamg c1 ≤ lamg (gridX j / lamr) := by
      apply lamg_antitone (by positivity)
      rw [div_le_iff₀ hr0]
      nlinarith
    have s3 : lamg (lamr ^ 2 * gridX j) ≤ lamg c2 := by
      apply lamg_antitone (by linarith)
      have : gridX (j + 1) ≤ lamr ^ 2 * gridX j := by rw [gridX_succ]; nlinarith [mul_pos hr0 hX]
      linarith
    unfold lamD
    constructor <;> linarith
  have hexp : lamP j v - lamH v = d * (t * (1 - t)) *
      ((lamM j - lamS j) * (1 - t) + (lamS j - lamM (j + 1)) * t - (lamg c1 - lamg c2)) := by
    have hH : lamH v = lamH (gridX j) + lamg c1 * (d * t) := by rw [← hvt]; linarith
    simp only [lamP, ← hdd, ← ht]
    rw [hH]
    linear_combination d * t * hS
  rw [hexp, abs_mul, abs_of_nonneg (by have := mul_pos ht0 (sub_pos.2 ht1); positivity)]
  have hb : |(lamM j - lamS j) * (1 - t) + (lamS j - lamM (j + 1)) * t - (lamg c1 - lamg c2)| ≤ lamD j := by
    rw [abs_le]
    have u0 := mul_nonneg a1 (sub_pos.2 ht1).le
    have u1 := mul_nonneg a3 ht0.le
    have u2 := mul_le_mul_of_nonneg_right a2 (sub_pos.2 ht1).le
    have u3 := mul_le_mul_of_nonneg_right a4 ht0.le
    constructor
    · linarith [hg.2]
    · have : lamD j / 2 * (1 - t) + lamD j / 2 * t = lamD j / 2 := by ring
      linarith [hg.1]
  have htt : t * (1 - t) ≤ 1 / 4 := by nlinarith [sq_nonneg (t - 1 / 2)]
  calc d * (t * (1 - t)) * _ ≤ d * (1 / 4) * lamD j := by
        apply mul_le_mul _ hb (abs_nonneg _) (by positivity)
        exact mul_le_mul_of_nonneg_left htt hd.le
    _ = d * lamD j / 4 := by ring

theorem lamg_hasDerivAt {x : ℝ} (hx : 0 ≤ x) : HasDerivAt lamg (-(3 / 2 * x ^ 2 * lamg x ^ 3)) x := by
  have hb := lamg_base hx
  have h1 : HasDerivAt (fun x : ℝ => 1 + x ^ 3) (3 * x ^ 2) x := by
    simpa using (hasDerivAt_pow 3 x).const_add 1
  have h2 := (h1.sqrt hb.ne').inv (by positivity)
  have e : lamg = (fun x : ℝ => √(1 + x ^ 3))⁻¹ := by
    ext x
    simp [lamg]
  rw [e]
  refine h2.congr_deriv ?_
  simp only [Pi.inv_apply]
  have : √(1 + x ^ 3) ≠ 0 := by positivity
  field_simp

/-- Width times spread is at most one thousandth. -/
theorem lamD_small (j : ℕ) : (gridX (j + 1) - gridX j) * lamD j ≤ 1 / 1000 := by
  have hr := lamr_gt
  have hr2 := lamr_lt
  have hr0 : 0 < lamr := by linarith
  have hX := gridX_pos j
  have hlt : gridX j / lamr < lamr ^ 2 * gridX j := by
    rw [div_lt_iff₀ hr0]
    have : 1 < lamr ^ 3 := one_lt_pow₀ hr (by norm_num)
    nlinarith
  obtain ⟨c, hc, e⟩ := exists_hasDerivAt_eq_slope lamg (fun x => -(3 / 2 * x ^ 2 * lamg x ^ 3)) hlt
    (fun x hx => (lamg_continuousAt (le_trans (by positivity) hx.1)).continuousWithinAt)
    (fun x hx => lamg_hasDerivAt (le_trans (by positivity) hx.1.le))
  have hc0 : 0 < c := lt_trans (by positivity) hc.1
  have hlen : 0 < lamr ^ 2 * gridX j - gridX j / lamr := sub_pos.2 hlt
  have hD : lamD j = 3 / 2 * c ^ 2 * lamg c ^ 3 * (lamr ^ 2 * gridX j - gridX j / lamr) := by
    rw [lamD]
    rw [eq_div_iff hlen.ne'] at e
    linarith
  have hXc : gridX j ≤ lamr * c := by
    have := hc.1
    rw [div_lt_iff₀ hr0] at this
    linarith
  have hg : c ^ 4 * lamg c ^ 3 ≤ 16 / 27 := by
    have hb := lamg_base hc0.le
    have h1 : (c ^ 4 * lamg c ^ 3) ^ 2 ≤ (16 / 27) ^ 2 := by
      have hs : lamg c ^ 2 = 1 / (1 + c ^ 3) := by rw [lamg, div_pow, one_pow, sq_sqrt hb.le]
      have : (c ^ 4 * lamg c ^ 3) ^ 2 = c ^ 8 / (1 + c ^ 3) ^ 3 := by
        rw [show (c ^ 4 * lamg c ^ 3) ^ 2 = c ^ 8 * (lamg c ^ 2) ^ 3 by ring, hs]
        field_simp
      rw [this, div_le_iff₀ (by positivity)]
      have hq : 0 ≤ (c - 2) ^ 2 * (256 * c ^ 7 + 295 * c ^ 6 + 156 * c ^ 5 + 212 * c ^ 4 + 224 * c ^ 3 + 48 * c ^ 2 + 64 * c + 64) := by
        positivity
      nlinarith
    exact le_of_sq_le_sq h1 (by norm_num)
  have hg0 : 0 ≤ c ^ 4 * lamg c ^ 3 := by have := lamg_pos hc0.le; positivity
  have e1 : (gridX (j + 1) - gridX j) * lamD j
      = 3 / 2 * ((lamr - 1) * (lamr ^ 3 - 1) / lamr) * (gridX j ^ 2 * (c ^ 2 * lamg c ^ 3)) := by
    rw [hD, gridX_succ]
    field_simp
  have h2 : gridX j ^ 2 * (c ^ 2 * lamg c ^ 3) ≤ lamr ^ 2 * (c ^ 4 * lamg c ^ 3) := by
    have := pow_le_pow_left₀ hX.le hXc 2
    have hp : 0 ≤ c ^ 2 * lamg c ^ 3 := by have := lamg_pos hc0.le; positivity
    calc _ ≤ (lamr * c) ^ 2 * (c ^ 2 * lamg c ^ 3) := mul_le_mul_of_nonneg_right this hp
      _ = _ := by ring
  have hr3 : 1 < lamr ^ 3 := one_lt_pow₀ hr (by norm_num)
  have hk : 0 ≤ 3 / 2 * ((lamr - 1) * (lamr ^ 3 - 1) / lamr) := by
    have := mul_pos (sub_pos.2 hr) (sub_pos.2 hr3)
    positivity
  have h3 : gridX j ^ 2 * (c ^ 2 * lamg c ^ 3) ≤ lamr ^ 2 * (16 / 27) :=
    h2.trans (mul_le_mul_of_nonneg_left hg (by positivity))
  rw [e1]
  refine (mul_le_mul_of_nonneg_left h3 hk).trans ?_
  have e3 : 3 / 2 * ((lamr - 1) * (lamr ^ 3 - 1) / lamr) * (lamr ^ 2 * (16 / 27)) = 8 / 9 * ((lamr - 1) * ((lamr ^ 3 - 1) * lamr)) := by
    field_simp
    ring
  rw [e3]
  have c3 : lamr ^ 3 ≤ 1.0187 ^ 3 := pow_le_pow_left₀ hr0.le hr2.le 3
  have hA : (lamr ^ 3 - 1) * lamr ≤ (1.0187 ^ 3 - 1) * 1.0187 :=
    mul_le_mul (by linarith) hr2.le hr0.le (by norm_num)
  have hB : (lamr - 1) * ((lamr ^ 3 - 1) * lamr) ≤ 0.0187 * ((1.0187 ^ 3 - 1) * 1.0187) :=
    mul_le_mul (by linarith) hA (mul_pos (sub_pos.2 hr3) hr0).le (by norm_num)
  refine (mul_le_mul_of_nonneg_left hB (by norm_num)).trans ?_
  norm_num

end Caustics

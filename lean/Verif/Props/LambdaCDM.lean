import Verif.Lemmas.LambdaCells
import Verif.Props.Cosmology

/-!
C98: the distances of FlatLambdaCDM, with the tabulated helper of the code, against the integral
`c / H₀ ∫₀ᶻ du / √(Ω (1 + u)³ + 1 - Ω)`.
-/

open Real MeasureTheory intervalIntegral

namespace Caustics

/-- The comoving distance of a flat universe with matter and a cosmological constant. -/
noncomputable def lcdmDistance (DH Om0 z : ℝ) : ℝ := DH * ∫ u in (0 : ℝ)..z, 1 / √(Om0 * (1 + u) ^ 3 + (1 - Om0))

/-- The argument at redshift zero. -/
noncomputable def lamRatio (Om0 : ℝ) : ℝ := (Om0 / (1 - Om0)) ^ (1 / 3 : ℝ)

theorem lamRatio_pos {Om0 : ℝ} (h0 : 0 < Om0) (h1 : Om0 < 1) : 0 < lamRatio Om0 :=
  rpow_pos_of_pos (div_pos h0 (by linarith)) _

theorem lamRatio_cube {Om0 : ℝ} (h0 : 0 < Om0) (h1 : Om0 < 1) : lamRatio Om0 ^ 3 = Om0 / (1 - Om0) := by
  have : 0 < Om0 / (1 - Om0) := div_pos h0 (by linarith)
  rw [lamRatio, ← rpow_natCast, ← rpow_mul this.le]
  norm_num

theorem lamRatio_sqrt {Om0 : ℝ} (h0 : 0 < Om0) (h1 : Om0 < 1) :
    lamRatio Om0 * √(1 - Om0) = Om0 ^ (1 / 3 : ℝ) * (1 - Om0) ^ (1 / 6 : ℝ) := by
  have h2 : 0 < 1 - Om0 := by linarith
  rw [lamRatio, div_rpow h0.le h2.le, sqrt_eq_rpow, div_mul_eq_mul_div, mul_div_assoc, ← rpow_sub h2]
  norm_num

/-- The formula of the code, with the tabulated function in place of its table. -/
theorem lcdm_formula {Om0 z : ℝ} (h0 : 0 < Om0) (h1 : Om0 < 1) (hz : 0 ≤ z) (DH : ℝ) :
    DH * (lamH ((1 + z) * lamRatio Om0) - lamH (lamRatio Om0)) / (Om0 ^ (1 / 3 : ℝ) * (1 - Om0) ^ (1 / 6 : ℝ))
      = lcdmDistance DH Om0 z := by
  have hr := lamRatio_pos h0 h1
  have h2 : 0 < 1 - Om0 := by linarith
  have hi : lamH ((1 + z) * lamRatio Om0) - lamH (lamRatio Om0) = ∫ t in lamRatio Om0..(1 + z) * lamRatio Om0, lamg t := by
    rw [lamH, lamH]
    have ha : 0 ≤ (1 + z) * lamRatio Om0 := by positivity
    exact integral_interval_sub_left (lamg_integrable le_rfl ha) (lamg_integrable le_rfl hr.le)
  have hc := intervalIntegral.integral_comp_mul_add (a := 0) (b := z) lamg hr.ne' (lamRatio Om0)
  rw [mul_zero, zero_add, show lamRatio Om0 * z + lamRatio Om0 = (1 + z) * lamRatio Om0 by ring, smul_eq_mul] at hc
  have hg : ∀ u ∈ Set.uIcc 0 z, lamg (lamRatio Om0 * u + lamRatio Om0) = √(1 - Om0) * (1 / √(Om0 * (1 + u) ^ 3 + (1 - Om0))) := by
    intro u hu
    rw [Set.uIcc_of_le hz] at hu
    have e : 1 + (lamRatio Om0 * u + lamRatio Om0) ^ 3 = (Om0 * (1 + u) ^ 3 + (1 - Om0)) / (1 - Om0) := by
      rw [show (lamRatio Om0 * u + lamRatio Om0) ^ 3 = lamRatio Om0 ^ 3 * (1 + u) ^ 3 by ring, lamRatio_cube h0 h1]
      field_simp
      ring
    have hu0 := hu.1
    rw [lamg, e, sqrt_div (by positivity)]
    field_simp
  rw [integral_congr hg, intervalIntegral.integral_const_mul] at hc
  rw [hi, lcdmDistance, ← lamRatio_sqrt h0 h1]
  have hs : √(1 - Om0) ≠ 0 := by positivity
  have : ∫ t in lamRatio Om0..(1 + z) * lamRatio Om0, lamg t
      = lamRatio Om0 * (√(1 - Om0) * ∫ u in (0 : ℝ)..z, 1 / √(Om0 * (1 + u) ^ 3 + (1 - Om0))) := by
    rw [hc]
    field_simp
  rw [this]
  field_simp

/-! ### The helper -/

theorem lamD_le (j : ℕ) : lamD j ≤ lamS j / 10 := by
  have hr := lamr_gt
  have hr0 : 0 < lamr := by linarith
  have hX := gridX_pos j
  have hg2 : 0 < lamg (lamr ^ 2 * gridX j) := lamg_pos (by positivity)
  have hle : lamg (gridX j / lamr) ≤ lamr ^ 5 * lamg (lamr ^ 2 * gridX j) := by
    unfold lamg
    rw [mul_one_div, div_le_div_iff₀ (by positivity) (by positivity), one_mul]
    apply sqrt_le_iff.2
    refine ⟨by positivity, ?_⟩
    rw [mul_pow (lamr ^ 5), sq_sqrt (by positivity)]
    have h1 : (1 : ℝ) ≤ lamr ^ 10 := one_le_pow₀ hr.le
    have h2 : lamr ^ 6 ≤ lamr ^ 7 := pow_le_pow_right₀ hr.le (by norm_num)
    have e : (lamr ^ 5) ^ 2 * (1 + (gridX j / lamr) ^ 3) = lamr ^ 10 + lamr ^ 7 * gridX j ^ 3 := by
      field_simp
    rw [e, mul_pow, ← pow_mul, show 2 * 3 = 6 from rfl]
    have : lamr ^ 6 * gridX j ^ 3 ≤ lamr ^ 7 * gridX j ^ 3 := mul_le_mul_of_nonneg_right h2 (by positivity)
    nlinarith
  have h5 : lamr ^ 5 ≤ 1.1 := (pow_le_pow_left₀ hr0.le lamr_lt.le 5).trans (by norm_num)
  have hS : lamg (lamr ^ 2 * gridX j) ≤ lamS j := by
    refine le_trans ?_ (lamS_bounds j).1
    apply lamg_antitone (gridX_pos _).le
    rw [gridX_succ]
    nlinarith [mul_pos hr0 hX]
  unfold lamD
  nlinarith

theorem lamP_lt {j : ℕ} (hj : j ≤ 498) {v w : ℝ} (hv : gridX j ≤ v) (hvw : v < w) (hw : j < 498 → w ≤ gridX (j + 1)) :
    lamP j v < lamP j w := by
  obtain ⟨a1, a2, a3, a4⟩ := lamM_bounds j hj
  have hd := sub_pos.2 (gridX_lt (Nat.lt_succ_self j))
  have hD := lamD_le j
  have hS := lamS_pos j
  have ht0 : 0 ≤ (v - gridX j) / (gridX (j + 1) - gridX j) := div_nonneg (by linarith) hd.le
  have htu : (v - gridX j) / (gridX (j + 1) - gridX j) < (w - gridX j) / (gridX (j + 1) - gridX j) :=
    div_lt_div_of_pos_right (by linarith) hd
  have hu1 : j < 498 → (w - gridX j) / (gridX (j + 1) - gridX j) ≤ 1 := by
    intro h
    rw [div_le_one hd]
    linarith [hw h]
  have hB : j = 498 → lamS j - lamM (j + 1) = 0 := by
    rintro rfl
    simp [lamM]
  simp only [lamP]
  generalize (v - gridX j) / (gridX (j + 1) - gridX j) = t at *
  generalize (w - gridX j) / (gridX (j + 1) - gridX j) = u at *
  have hA' : lamM j - lamS j ≤ lamS j / 20 := by linarith
  have hB' : lamS j - lamM (j + 1) ≤ lamS j / 20 := by linarith
  generalize lamM j - lamS j = A at *
  generalize lamS j - lamM (j + 1) = B at *
  have key : lamS j * t + A * (t * (1 - t) ^ 2) + B * (t ^ 2 * (1 - t)) < lamS j * u + A * (u * (1 - u) ^ 2) + B * (u ^ 2 * (1 - u)) := by
    have e : lamS j * u + A * (u * (1 - u) ^ 2) + B * (u ^ 2 * (1 - u)) - (lamS j * t + A * (t * (1 - t) ^ 2) + B * (t ^ 2 * (1 - t)))
        = (u - t) * (lamS j + A * (1 - 2 * (t + u) + (t ^ 2 + t * u + u ^ 2)) + B * ((t + u) - (t ^ 2 + t * u + u ^ 2))) := by ring
    have q1 : -1 ≤ 1 - 2 * (t + u) + (t ^ 2 + t * u + u ^ 2) := by nlinarith [sq_nonneg (t - u), sq_nonneg (t + u - 4 / 3)]
    have hAq : -A ≤ A * (1 - 2 * (t + u) + (t ^ 2 + t * u + u ^ 2)) := by nlinarith
    have hBq : -B ≤ B * ((t + u) - (t ^ 2 + t * u + u ^ 2)) := by
      rcases hj.lt_or_eq with h | h
      · have hu := hu1 h
        have q2 : -1 ≤ (t + u) - (t ^ 2 + t * u + u ^ 2) := by nlinarith
        nlinarith
      · rw [hB h]; simp
    have := mul_pos (sub_pos.2 htu) (show 0 < lamS j + A * (1 - 2 * (t + u) + (t ^ 2 + t * u + u ^ 2)) + B * ((t + u) - (t ^ 2 + t * u + u ^ 2)) by
      linarith)
    linarith
  linarith [mul_lt_mul_of_pos_left key hd]

theorem lamP_left (j : ℕ) : lamP j (gridX j) = lamH (gridX j) := by simp [lamP]

theorem lamP_right (j : ℕ) : lamP j (gridX (j + 1)) = lamH (gridX (j + 1)) := by
  have hd := sub_pos.2 (gridX_lt (Nat.lt_succ_self j))
  simp only [lamP, div_self hd.ne']
  rw [lamS]
  field_simp
  ring

/-- The helper never fails and is strictly increasing from the first abscissa on, also beyond the last. -/
theorem lambdaHelper_strictMono {v w : ℝ} (hv : gridX 0 ≤ v) (hvw : v < w) :
    ∃ a b, lambdaHelper v = .ok a ∧ lambdaHelper w = .ok b ∧ a < b := by
  obtain ⟨j', hj', l', u', e'⟩ := lambdaHelper_cell (lt_of_le_of_lt hv hvw)
  rcases hv.eq_or_lt with rfl | hv
  · refine ⟨_, _, lambdaHelper_first, e', ?_⟩
    have h1 := lamP_lt hj' le_rfl l' u'
    rw [lamP_left] at h1
    refine lt_of_le_of_lt ?_ h1
    rcases Nat.eq_zero_or_pos j' with rfl | h
    · exact le_rfl
    · exact (lamH_strictMono (gridX_pos 0).le (gridX_lt h)).le
  · obtain ⟨j, hj, l, u, e⟩ := lambdaHelper_cell hv
    refine ⟨_, _, e, e', ?_⟩
    rcases lt_trichotomy j j' with h | rfl | h
    · have h1 : lamP j v ≤ lamH (gridX (j + 1)) := by
        rw [← lamP_right]
        rcases (u (by omega)).eq_or_lt with hh | hh
        · rw [hh]
        · exact (lamP_lt hj l.le hh (fun _ => le_rfl)).le
      have h2 : lamH (gridX (j + 1)) ≤ lamH (gridX j') := by
        rcases (Nat.succ_le_of_lt h).eq_or_lt with hh | hh
        · rw [← hh]
        · exact (lamH_strictMono (gridX_pos _).le (gridX_lt hh)).le
      have h3 := lamP_lt hj' le_rfl l' u'
      rw [lamP_left] at h3
      linarith
    · exact lamP_lt hj l.le hvw u'
    · exfalso
      have h1 := u' (by omega)
      have h2 : gridX (j' + 1) ≤ gridX j := by
        rcases (Nat.succ_le_of_lt h).eq_or_lt with hh | hh
        · rw [← hh]
        · exact (gridX_lt hh).le
      linarith

/-- Within the table. -/
theorem lambdaHelper_error {v : ℝ} (hv : gridX 0 ≤ v) (hv' : v ≤ 10) : ∃ a, lambdaHelper v = .ok a ∧ |a - lamH v| ≤ 1 / 4000 := by
  rcases hv.eq_or_lt with rfl | hv
  · exact ⟨_, lambdaHelper_first, by simp⟩
  obtain ⟨j, hj, l, u, e⟩ := lambdaHelper_cell hv
  refine ⟨_, e, ?_⟩
  have hw : v ≤ gridX (j + 1) := by
    rcases hj.lt_or_eq with h | h
    · exact u h
    · rw [h, gridX_last]; exact hv'
  have := lamP_error j hj l.le hw
  have := lamD_small j
  linarith

/-- Beyond it the last cubic goes on. -/
theorem lambdaHelper_beyond {v : ℝ} (hv : 10 ≤ v) : ∃ a, lambdaHelper v = .ok a ∧ (v - 10) / 32 ≤ a := by
  obtain ⟨j, hj, l, u, e⟩ := lambdaHelper_cell (v := v) (by rw [gridX_zero]; linarith)
  have hj8 : j = 498 := by
    by_contra hne
    have h1 := u (by omega)
    have h2 : gridX (j + 1) < gridX 499 := gridX_lt (by omega)
    rw [gridX_last] at h2
    linarith
  subst hj8
  refine ⟨_, e, ?_⟩
  obtain ⟨a1, -, -, -⟩ := lamM_bounds 498 le_rfl
  have hd := sub_pos.2 (gridX_lt (Nat.lt_succ_self 498))
  have hB : lamS 498 - lamM 499 = 0 := by simp [lamM]
  have hS := (lamS_bounds 498).1
  rw [show 498 + 1 = 499 from rfl, gridX_last] at hS
  have hg : 1 / 32 ≤ lamg 10 := by
    unfold lamg
    apply one_div_le_one_div_of_le (by positivity)
    rw [sqrt_le_left (by norm_num)]
    norm_num
  have hX := gridX_lt (show 498 < 499 by norm_num)
  rw [gridX_last] at hX
  have hH := lamH_strictMono le_rfl (gridX_pos 498)
  rw [lamH_zero] at hH
  simp only [lamP, show 498 + 1 = 499 from rfl, hB, zero_mul, add_zero, gridX_last] at hd ⊢
  set t := (v - gridX 498) / (10 - gridX 498) with ht
  have ht0 : 0 ≤ t := div_nonneg (by linarith) hd.le
  have hvt : (10 - gridX 498) * t = v - gridX 498 := by rw [ht]; field_simp
  have h2 : 0 ≤ (10 - gridX 498) * ((lamM 498 - lamS 498) * (t * (1 - t) ^ 2)) := by positivity
  have h3 : (10 - gridX 498) * (lamS 498 * t) = lamS 498 * (v - gridX 498) := by rw [← hvt]; ring
  have h4 : 1 / 32 * (v - 10) ≤ lamS 498 * (v - gridX 498) :=
    mul_le_mul (by linarith) (by linarith) (by linarith) (lamS_pos _).le
  nlinarith

/-! ### C98 -/

/-- The cosmology object with the table of the code. -/
noncomputable def tabulated (h0 rho Om0 cMpcS kmToMpc : ℝ) : FlatLambda :=
  ⟨h0, rho, Om0, cMpcS, kmToMpc, fun x => (lambdaHelper x).toOption.getD 0⟩

theorem lambdaHelper_total (x : ℝ) : ∃ a, lambdaHelper x = .ok a := C08_total _ _ lambda_table _ _

/-- The value `comoving_distance` returns. -/
theorem comovingOpt_eq {h0 Om0 cMpcS kmToMpc z : ℝ} (hh : h0 ≠ 0) (hO : 0 < Om0) (hO1 : Om0 < 1) (rho : ℝ) :
    comovingOpt h0 Om0 cMpcS kmToMpc z = some ((tabulated h0 rho Om0 cMpcS kmToMpc).comovingDistance z) := by
  have h2 : 0 < 1 - Om0 := by linarith
  obtain ⟨a, ha⟩ := lambdaHelper_total ((1 + z) * (Om0 / (1 - Om0)) ^ (1 / 3 : ℝ))
  obtain ⟨b, hb⟩ := lambdaHelper_total ((Om0 / (1 - Om0)) ^ (1 / 3 : ℝ))
  have p1 : powOpt (Om0 / (1 - Om0)) (1 / 3) = some ((Om0 / (1 - Om0)) ^ (1 / 3 : ℝ)) := if_pos (Or.inl (div_pos hO h2))
  have p2 : powOpt Om0 (1 / 3) = some (Om0 ^ (1 / 3 : ℝ)) := if_pos (Or.inl hO)
  have p3 : powOpt (1 - Om0) (1 / 6) = some ((1 - Om0) ^ (1 / 6 : ℝ)) := if_pos (Or.inl h2)
  have q : Om0 ^ (1 / 3 : ℝ) * (1 - Om0) ^ (1 / 6 : ℝ) ≠ 0 := by positivity
  simp only [comovingOpt, divOpt, if_neg h2.ne', if_neg hh, p1, p2, p3, ha, hb, if_neg q, Except.toOption, bind, Option.bind,
    FlatLambda.comovingDistance, FlatLambda.hubbleDistance, tabulated, Option.getD_some]

theorem tabulated_distance {h0 rho Om0 cMpcS kmToMpc z a b : ℝ} (ha : lambdaHelper ((1 + z) * lamRatio Om0) = .ok a)
    (hb : lambdaHelper (lamRatio Om0) = .ok b) : (tabulated h0 rho Om0 cMpcS kmToMpc).comovingDistance z
      = cMpcS / (100 * kmToMpc) / h0 * (a - b) / (Om0 ^ (1 / 3 : ℝ) * (1 - Om0) ^ (1 / 6 : ℝ)) := by
  have e : (tabulated h0 rho Om0 cMpcS kmToMpc).comovingDistance z = cMpcS / (100 * kmToMpc) / h0
      * ((lambdaHelper ((1 + z) * lamRatio Om0)).toOption.getD 0 - (lambdaHelper (lamRatio Om0)).toOption.getD 0)
      / (Om0 ^ (1 / 3 : ℝ) * (1 - Om0) ^ (1 / 6 : ℝ)) := by
    simp only [FlatLambda.comovingDistance, FlatLambda.hubbleDistance, tabulated, lamRatio]
  rw [e, ha, hb]
  simp only [Except.toOption, Option.getD_some]

/-- The full claim: the distance of the code is that of flat ΛCDM up to the resolution of the table. -/
def C98_statement : Prop :=
  ∀ h0 Om0 cMpcS kmToMpc z : ℝ, 0 < h0 → 0 < Om0 → Om0 < 1 → 0 < cMpcS → 0 < kmToMpc → 1 / 1000 ≤ lamRatio Om0 → 0 ≤ z →
    ∃ D, comovingOpt h0 Om0 cMpcS kmToMpc z = some D ∧
      |D - lcdmDistance (cMpcS / (100 * kmToMpc) / h0) Om0 z|
        ≤ cMpcS / (100 * kmToMpc) / h0 / (Om0 ^ (1 / 3 : ℝ) * (1 - Om0) ^ (1 / 6 : ℝ)) / 2000

/-- It holds up to the redshift where the table ends, `(1 + z)³ Ω / (1 - Ω) = 1000`. -/
theorem C98_accuracy_partial {h0 Om0 cMpcS kmToMpc z : ℝ} (hh : 0 < h0) (hO : 0 < Om0) (hO1 : Om0 < 1) (hc : 0 < cMpcS)
    (hk : 0 < kmToMpc) (hr : 1 / 1000 ≤ lamRatio Om0) (hz : 0 ≤ z) (hend : (1 + z) * lamRatio Om0 ≤ 10) :
    ∃ D, comovingOpt h0 Om0 cMpcS kmToMpc z = some D ∧
      |D - lcdmDistance (cMpcS / (100 * kmToMpc) / h0) Om0 z|
        ≤ cMpcS / (100 * kmToMpc) / h0 / (Om0 ^ (1 / 3 : ℝ) * (1 - Om0) ^ (1 / 6 : ℝ)) / 2000 := by
  refine ⟨_, comovingOpt_eq hh.ne' hO hO1 0, ?_⟩
  have hp := lamRatio_pos hO hO1
  have hle : lamRatio Om0 ≤ (1 + z) * lamRatio Om0 := by nlinarith
  obtain ⟨a, ha, ea⟩ := lambdaHelper_error (v := (1 + z) * lamRatio Om0) (by rw [gridX_zero]; linarith) hend
  obtain ⟨b, hb, eb⟩ := lambdaHelper_error (v := lamRatio Om0) (by rw [gridX_zero]; linarith) (by linarith)
  rw [← lcdm_formula hO hO1 hz]
  rw [tabulated_distance ha hb]
  have h2 : 0 < 1 - Om0 := by linarith
  set DH := cMpcS / (100 * kmToMpc) / h0
  set q := Om0 ^ (1 / 3 : ℝ) * (1 - Om0) ^ (1 / 6 : ℝ)
  have hDH : 0 < DH := by positivity
  have hq : 0 < q := by positivity
  have e : DH * (a - b) / q - DH * (lamH ((1 + z) * lamRatio Om0) - lamH (lamRatio Om0)) / q
      = DH / q * ((a - lamH ((1 + z) * lamRatio Om0)) - (b - lamH (lamRatio Om0))) := by ring
  rw [e, abs_mul, abs_of_pos (by positivity)]
  have := abs_sub (a - lamH ((1 + z) * lamRatio Om0)) (b - lamH (lamRatio Om0))
  have h3 : |(a - lamH ((1 + z) * lamRatio Om0)) - (b - lamH (lamRatio Om0))| ≤ 1 / 2000 := by linarith
  calc _ ≤ DH / q * (1 / 2000) := mul_le_mul_of_nonneg_left h3 (by positivity)
    _ = _ := by ring

/-- Distances start at zero and increase strictly with redshift, at all redshifts, so that everything C22 says applies. -/
theorem C98_increasing {h0 Om0 cMpcS kmToMpc : ℝ} (hh : 0 < h0) (hO : 0 < Om0) (hO1 : Om0 < 1) (hc : 0 < cMpcS)
    (hk : 0 < kmToMpc) (hr : 1 / 1000 ≤ lamRatio Om0) :
    comovingOpt h0 Om0 cMpcS kmToMpc 0 = some 0 ∧
    (∀ z z', 0 ≤ z → z < z' → ∃ D D', comovingOpt h0 Om0 cMpcS kmToMpc z = some D ∧
      comovingOpt h0 Om0 cMpcS kmToMpc z' = some D' ∧ D < D') ∧
    ∀ rho G, ((tabulated h0 rho Om0 cMpcS kmToMpc).cosmo G).Increasing := by
  have h2 : 0 < 1 - Om0 := by linarith
  have hp := lamRatio_pos hO hO1
  have hlt : ∀ rho z z', 0 ≤ z → z < z' → (tabulated h0 rho Om0 cMpcS kmToMpc).comovingDistance z
      < (tabulated h0 rho Om0 cMpcS kmToMpc).comovingDistance z' := by
    intro rho z z' hz hzz
    have hle : lamRatio Om0 ≤ (1 + z) * lamRatio Om0 := by nlinarith
    obtain ⟨a, b, ha, hb, hab⟩ := lambdaHelper_strictMono (v := (1 + z) * lamRatio Om0) (w := (1 + z') * lamRatio Om0)
      (by rw [gridX_zero]; linarith) (mul_lt_mul_of_pos_right (by linarith) hp)
    obtain ⟨c, hc'⟩ := lambdaHelper_total (lamRatio Om0)
    rw [tabulated_distance ha hc', tabulated_distance hb hc']
    apply div_lt_div_of_pos_right _ (by positivity)
    apply mul_lt_mul_of_pos_left _ (by positivity)
    linarith
  refine ⟨?_, fun z z' hz hzz => ⟨_, _, comovingOpt_eq hh.ne' hO hO1 0, comovingOpt_eq hh.ne' hO hO1 0, hlt 0 z z' hz hzz⟩,
    fun rho G => ⟨C58_zero _, hlt rho⟩⟩
  rw [comovingOpt_eq hh.ne' hO hO1 0, C58_zero]

/-- The universe has a horizon: no comoving distance exceeds this. -/
theorem C98_horizon {DH Om0 z : ℝ} (hDH : 0 < DH) (hO : 0 < Om0) (hO1 : Om0 < 1) (hz : 0 ≤ z) :
    lcdmDistance DH Om0 z < 3 * DH / (Om0 ^ (1 / 3 : ℝ) * (1 - Om0) ^ (1 / 6 : ℝ)) := by
  have h2 : 0 < 1 - Om0 := by linarith
  have hp := lamRatio_pos hO hO1
  rw [← lcdm_formula hO hO1 hz]
  apply div_lt_div_of_pos_right _ (by positivity)
  have h1 := lamH_lt_three (x := (1 + z) * lamRatio Om0) (by positivity)
  have h3 := lamH_strictMono le_rfl hp
  rw [lamH_zero] at h3
  nlinarith

/-- Beyond the table the distance of the code grows without bound. -/
theorem C98_beyond {h0 Om0 cMpcS kmToMpc z : ℝ} (hh : 0 < h0) (hO : 0 < Om0) (hO1 : Om0 < 1) (hc : 0 < cMpcS)
    (hk : 0 < kmToMpc) (hr : 1 / 1000 ≤ lamRatio Om0) (hr' : lamRatio Om0 ≤ 10) (hend : 10 ≤ (1 + z) * lamRatio Om0) :
    ∃ D, comovingOpt h0 Om0 cMpcS kmToMpc z = some D ∧
      cMpcS / (100 * kmToMpc) / h0 / (Om0 ^ (1 / 3 : ℝ) * (1 - Om0) ^ (1 / 6 : ℝ)) * (((1 + z) * lamRatio Om0 - 10) / 32 - 3.001) ≤ D := by
  refine ⟨_, comovingOpt_eq hh.ne' hO hO1 0, ?_⟩
  have hp := lamRatio_pos hO hO1
  obtain ⟨a, ha, ea⟩ := lambdaHelper_beyond hend
  obtain ⟨b, hb, eb⟩ := lambdaHelper_error (v := lamRatio Om0) (by rw [gridX_zero]; linarith) hr'
  have h3 := lamH_lt_three hp.le
  have h2 : 0 < 1 - Om0 := by linarith
  rw [tabulated_distance ha hb]
  set DH := cMpcS / (100 * kmToMpc) / h0
  set q := Om0 ^ (1 / 3 : ℝ) * (1 - Om0) ^ (1 / 6 : ℝ)
  have hDH : 0 < DH := by positivity
  have hq : 0 < q := by positivity
  have hb' := abs_le.1 eb
  rw [show DH * (a - b) / q = DH / q * (a - b) by ring]
  apply mul_le_mul_of_nonneg_left _ (by positivity)
  have : (1 : ℝ) / 4000 ≤ 0.001 := by norm_num
  linarith [hb'.2]

/-- In the default cosmology the table ends at redshift 12; at redshift 1100 the distance of the code is more than seven times the true one. -/
theorem C98_fails_last_scattering {h0 cMpcS kmToMpc : ℝ} (hh : 0 < h0) (hc : 0 < cMpcS) (hk : 0 < kmToMpc) :
    ∃ D, comovingOpt h0 0.3 cMpcS kmToMpc 1100 = some D ∧ 7 * lcdmDistance (cMpcS / (100 * kmToMpc) / h0) 0.3 1100 < D := by
  have hO : (0 : ℝ) < 0.3 := by norm_num
  have hO1 : (0.3 : ℝ) < 1 := by norm_num
  have hcube := lamRatio_cube hO hO1
  have hp := lamRatio_pos hO hO1
  have hlo : 0.75 ≤ lamRatio 0.3 := by
    by_contra h
    have := pow_lt_pow_left₀ (not_le.1 h) hp.le (n := 3) (by norm_num)
    rw [hcube] at this
    norm_num at this
  have hhi : lamRatio 0.3 ≤ 1 := by
    by_contra h
    have := pow_lt_pow_left₀ (not_le.1 h) (by norm_num) (n := 3) (by norm_num)
    rw [hcube] at this
    norm_num at this
  obtain ⟨D, e, hD⟩ := C98_beyond (z := 1100) hh hO hO1 hc hk (by linarith) (by linarith) (by linarith)
  refine ⟨D, e, lt_of_lt_of_le ?_ hD⟩
  have hDH : 0 < cMpcS / (100 * kmToMpc) / h0 := by positivity
  have hq : (0 : ℝ) < 0.3 ^ (1 / 3 : ℝ) * (1 - 0.3) ^ (1 / 6 : ℝ) := by positivity
  have h1 := C98_horizon (z := 1100) hDH hO hO1 (by norm_num)
  set DH := cMpcS / (100 * kmToMpc) / h0
  set q := (0.3 : ℝ) ^ (1 / 3 : ℝ) * (1 - 0.3) ^ (1 / 6 : ℝ)
  have h2 : 7 * (3 * DH / q) = DH / q * 21 := by ring
  have h3 : DH / q * 21 ≤ DH / q * (((1 + 1100) * lamRatio 0.3 - 10) / 32 - 3.001) :=
    mul_le_mul_of_nonneg_left (by linarith) (by positivity)
  linarith

theorem C98_fails : ¬C98_statement := by
  intro h
  have hO : (0 : ℝ) < 0.3 := by norm_num
  have hO1 : (0.3 : ℝ) < 1 := by norm_num
  have hcube := lamRatio_cube hO hO1
  have hp := lamRatio_pos hO hO1
  have hlo : 0.75 ≤ lamRatio 0.3 := by
    by_contra h
    have := pow_lt_pow_left₀ (not_le.1 h) hp.le (n := 3) (by norm_num)
    rw [hcube] at this
    norm_num at this
  have hhi : lamRatio 0.3 ≤ 1 := by
    by_contra h
    have := pow_lt_pow_left₀ (not_le.1 h) (by norm_num) (n := 3) (by norm_num)
    rw [hcube] at this
    norm_num at this
  obtain ⟨D, e, hD⟩ := h 0.7 0.3 1 1 1100 (by norm_num) hO hO1 one_pos one_pos (by linarith) (by norm_num)
  obtain ⟨D', e', hD'⟩ := C98_beyond (h0 := 0.7) (cMpcS := 1) (kmToMpc := 1) (z := 1100) (by norm_num) hO hO1 one_pos one_pos
    (by linarith) (by linarith) (by linarith)
  rw [e, Option.some.injEq] at e'
  subst e'
  have hDH : (0 : ℝ) < 1 / (100 * 1) / 0.7 := by norm_num
  have hq : (0 : ℝ) < 0.3 ^ (1 / 3 : ℝ) * (1 - 0.3) ^ (1 / 6 : ℝ) := by positivity
  have h1 := C98_horizon (z := 1100) hDH hO hO1 (by norm_num)
  set DH := (1 : ℝ) / (100 * 1) / 0.7
  set q := (0.3 : ℝ) ^ (1 / 3 : ℝ) * (1 - 0.3) ^ (1 / 6 : ℝ)
  have h2 : 3 * DH / q = DH / q * 3 := by ring
  have hpos : 0 < DH / q := by positivity
  have h3 : DH / q * 21 ≤ DH / q * (((1 + 1100) * lamRatio 0.3 - 10) / 32 - 3.001) :=
    mul_le_mul_of_nonneg_left (by linarith) hpos.le
  have h4 := (abs_le.1 hD).2
  linarith

/-- The ends of the admissible range of `Om0` (`valid=(0, 1)`): without dark energy, and without matter, there is no distance at all. -/
theorem C98_fails_ends (h0 cMpcS kmToMpc z : ℝ) :
    comovingOpt h0 1 cMpcS kmToMpc z = none ∧ comovingOpt h0 0 cMpcS kmToMpc z = none := by
  constructor
  · simp [comovingOpt, divOpt]
  · have p1 : powOpt 0 (1 / 3) = some 0 := by
      rw [powOpt, if_pos (Or.inr ⟨rfl, by norm_num⟩), zero_rpow (by norm_num)]
    have p2 : powOpt (1 - 0) (1 / 6) = some 1 := by
      rw [powOpt, if_pos (Or.inl (by norm_num)), sub_zero, one_rpow]
    simp only [comovingOpt, divOpt, sub_zero, zero_div, one_ne_zero, if_false, bind, Option.bind, p1, mul_zero]
    rw [sub_zero] at p2
    simp only [p2, zero_mul, if_true]
    obtain ⟨a, ha⟩ := lambdaHelper_total 0
    rw [ha]
    by_cases hh : h0 = 0
    · simp only [hh, if_true]
    · simp only [hh, if_false, Except.toOption]

/-- Whereas an Einstein–de Sitter universe has perfectly good distances: `2 (1 - 1/√(1 + z))` Hubble distances. -/
theorem C98_ends_exact {DH z : ℝ} (hz : 0 ≤ z) : lcdmDistance DH 1 z = DH * (2 * (1 - 1 / √(1 + z))) ∧ lcdmDistance DH 0 z = DH * z := by
  constructor
  · rw [lcdmDistance]
    congr 1
    have hd : ∀ u ∈ Set.uIcc 0 z, HasDerivAt (fun u : ℝ => -(2 * (√(1 + u))⁻¹)) (1 / √(1 * (1 + u) ^ 3 + (1 - 1))) u := by
      intro u hu
      rw [Set.uIcc_of_le hz] at hu
      have hu1 : 0 < 1 + u := by linarith [hu.1]
      have h1 : HasDerivAt (fun u : ℝ => 1 + u) 1 u := (hasDerivAt_id u).const_add 1
      have h2 := (((h1.sqrt hu1.ne').inv (by positivity)).const_mul 2).neg
      refine h2.congr_deriv ?_
      have hs : √(1 + u) ^ 2 = 1 + u := sq_sqrt hu1.le
      have h3 : √(1 * (1 + u) ^ 3 + (1 - 1)) = (1 + u) * √(1 + u) := by
        rw [one_mul, sub_self, add_zero, show (1 + u) ^ 3 = (1 + u) ^ 2 * (1 + u) by ring, sqrt_mul (by positivity), sqrt_sq hu1.le]
      have : √(1 + u) ≠ 0 := by positivity
      rw [h3, hs]
      field_simp
    have hi : IntervalIntegrable (fun u : ℝ => 1 / √(1 * (1 + u) ^ 3 + (1 - 1))) volume 0 z := by
      apply ContinuousOn.intervalIntegrable
      intro u hu
      rw [Set.uIcc_of_le hz] at hu
      have hu1 : 0 < 1 * (1 + u) ^ 3 + (1 - 1) := by have := hu.1; simp; positivity
      apply ContinuousAt.continuousWithinAt
      apply ContinuousAt.div continuousAt_const _ (by positivity)
      exact (continuous_sqrt.comp (by fun_prop)).continuousAt
    rw [integral_eq_sub_of_hasDerivAt hd hi]
    simp
    ring
  · simp [lcdmDistance]

/-- The default matter density meets the hypotheses, up to redshift 9 and beyond. -/
example : ∃ D, comovingOpt 0.7 0.3 3 2 9 = some D ∧
    |D - lcdmDistance (3 / (100 * 2) / 0.7) 0.3 9| ≤ 3 / (100 * 2) / 0.7 / (0.3 ^ (1 / 3 : ℝ) * (1 - 0.3) ^ (1 / 6 : ℝ)) / 2000 := by
  have hO : (0 : ℝ) < 0.3 := by norm_num
  have hO1 : (0.3 : ℝ) < 1 := by norm_num
  have hcube := lamRatio_cube hO hO1
  have hp := lamRatio_pos hO hO1
  have hlo : 0.5 ≤ lamRatio 0.3 := by
    by_contra h
    have := pow_lt_pow_left₀ (not_le.1 h) hp.le (n := 3) (by norm_num)
    rw [hcube] at this
    norm_num at this
  have hhi : lamRatio 0.3 ≤ 1 := by
    by_contra h
    have := pow_lt_pow_left₀ (not_le.1 h) (by norm_num) (n := 3) (by norm_num)
    rw [hcube] at this
    norm_num at this
  exact C98_accuracy_partial (by norm_num) hO hO1 (by norm_num) (by norm_num) (by linarith) (by norm_num) (by linarith)

end Caustics

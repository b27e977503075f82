import Verif.Model.AutoDiffPrograms
import Verif.Lemmas.AutoDiff
import Verif.Lemmas.Softening
import Verif.Spec.Grad

/-! The programs denote the functions of the model, and where they stay inside the domain of every operation. -/

open Real

namespace Caustics

open Ex

/-- At `ρ` the program returns `f ρ`, forward mode returns the derivative of `f` along every direction and reverse mode
returns every partial derivative of `f`. -/
def Exact {n : ℕ} (e : Ex n) (f : (Fin n → ℝ) → ℝ) (ρ : Fin n → ℝ) : Prop :=
  ∃ D : (Fin n → ℝ) →L[ℝ] ℝ, HasFDerivAt f D ρ ∧ e.val (XR.ofReals ρ) = .fin (f ρ) ∧
    (∀ d, e.fwd (XR.ofReals ρ) (XR.ofReals d) = .fin (D d)) ∧
    ∀ k, e.rev (XR.ofReals ρ) (.fin 1) k = .fin (D (Pi.single k 1))

theorem Exact.of_reg {n : ℕ} {e : Ex n} {f : (Fin n → ℝ) → ℝ} {ρ : Fin n → ℝ} (h : e.Reg true ρ) (hf : e.sem = f) :
    Exact e f ρ := by
  obtain ⟨D, hD, hd⟩ := Ex.fwd_reg h.weaken
  subst hf
  exact ⟨D, hD, Ex.val_reg h.weaken, hd, fun k => by rw [Ex.rev_reg h hD, one_mul]⟩

theorem Exact.of_reg_near {n : ℕ} {e : Ex n} {f : (Fin n → ℝ) → ℝ} {ρ : Fin n → ℝ} (h : e.Reg true ρ)
    (hf : f =ᶠ[nhds ρ] e.sem) : Exact e f ρ := by
  obtain ⟨D, hD, hv, hd, hk⟩ := Exact.of_reg h rfl
  exact ⟨D, hD.congr_of_eventuallyEq hf, by rw [hv, hf.eq_of_nhds], hd, hk⟩

theorem ite_inst {α : Type*} (p : Prop) (d1 d2 : Decidable p) (a b : α) : @ite α p d1 a b = @ite α p d2 a b := by
  congr

/-! ### The programs denote the functions of the model -/

theorem nfwHEx_sem {n : ℕ} (ρ : Fin (n + 1) → ℝ) : nfwHEx.sem ρ = nfwH (ρ 0) := by
  unfold nfwH
  simp only [gt_iff_lt]
  rw [ite_inst (1 < ρ 0) _ (Classical.propDecidable _), ite_inst (ρ 0 < 1) _ (Classical.propDecidable _)]
  rfl

theorem nfwFEx_sem {n : ℕ} (ρ : Fin (n + 1) → ℝ) : nfwFEx.sem ρ = nfwF (ρ 0) := by
  unfold nfwF
  simp only [gt_iff_lt]
  rw [ite_inst (1 < ρ 0) _ (Classical.propDecidable _), ite_inst (ρ 0 < 1) _ (Classical.propDecidable _)]
  rfl

theorem nfwGEx_sem {n : ℕ} (ρ : Fin (n + 1) → ℝ) : nfwGEx.sem ρ = nfwG (ρ 0) := by
  unfold nfwG
  simp only [gt_iff_lt]
  rw [ite_inst (1 < ρ 0) _ (Classical.propDecidable _), ite_inst (ρ 0 < 1) _ (Classical.propDecidable _)]
  rfl

theorem tnfwFEx_sem {n : ℕ} (ρ : Fin (n + 1) → ℝ) : tnfwFEx.sem ρ = tnfwF (ρ 0) := by
  unfold tnfwF
  simp only [gt_iff_lt]
  rw [ite_inst (ρ 0 < 1 - 1e-2) _ (Classical.propDecidable _), ite_inst (1 + 1e-2 < ρ 0) _ (Classical.propDecidable _)]
  rfl

/-- The NFW lens whose arguments are the variables of `nfwX`. -/
def nfwAt (v : Fin 11 → ℝ) : NFW where
  Gc2 := v 10
  x0 := v 2
  y0 := v 3
  mass := v 5
  c := v 6
  Delta := v 9
  rhoc := v 7
  d_l := v 8
  d_s := 1
  d_ls := 1
  sigmacr := v 10
  s := v 4

theorem nfwX_sem : nfwX.sem = fun v => ((nfwAt v).physicalDeflection (v 0) (v 1)).1 := by
  funext v
  unfold NFW.physicalDeflection
  simp only []
  rw [← nfwHEx_sem (n := 0) (fun _ => _)]
  rfl

theorem nfwY_sem : nfwY.sem = fun v => ((nfwAt v).physicalDeflection (v 0) (v 1)).2 := by
  funext v
  unfold NFW.physicalDeflection
  simp only []
  rw [← nfwHEx_sem (n := 0) (fun _ => _)]
  rfl

theorem nfwPot_sem : nfwPot.sem = fun v => (nfwAt v).potential (v 0) (v 1) := by
  funext v
  unfold NFW.potential
  simp only []
  rw [← nfwGEx_sem (n := 0) (fun _ => _)]
  rfl

/-- lenses/func/nfw.py:327 away from the scale radius. -/
noncomputable def nfwConvReal (v : Fin 11 → ℝ) : ℝ := ((nfwAt v).convergence (v 0) (v 1)).getD 0

theorem nfwConv_sem : nfwConv.sem = nfwConvReal := by
  funext v
  unfold nfwConvReal NFW.convergence divOpt
  simp only []
  rw [← nfwFEx_sem (n := 0) (fun _ => _)]
  split_ifs with h
  · show _ / _ = (0 : ℝ)
    refine (congrArg _ ?_).trans (div_zero _)
    exact h
  · rfl

/-- The pseudo-Jaffe lens whose arguments are the variables of `pjX`. -/
def pjAt (v : Fin 10 → ℝ) : PJaffe where
  Gc2 := 0
  x0 := v 2
  y0 := v 3
  mass := v 5
  Rc := v 6
  Rs := v 7
  d_l := v 8
  d_s := 1
  d_ls := 1
  sigmacr := v 9
  s := v 4

theorem pjX_sem : pjX.sem = fun v => ((pjAt v).deflection (v 0) (v 1)).1 := rfl

theorem pjY_sem : pjY.sem = fun v => ((pjAt v).deflection (v 0) (v 1)).2 := rfl

theorem sieX_sem : sieX.sem = fun v => (sieDeflection (v 2) (v 3) (v 5) (v 6) (v 7) (v 4) (v 0) (v 1)).1 := by
  funext v
  unfold sieDeflection sieQ
  simp only []
  rw [ite_inst (v 5 = 1) _ (Classical.propDecidable _)]
  rfl

theorem sieY_sem : sieY.sem = fun v => (sieDeflection (v 2) (v 3) (v 5) (v 6) (v 7) (v 4) (v 0) (v 1)).2 := by
  funext v
  unfold sieDeflection sieQ
  simp only []
  rw [ite_inst (v 5 = 1) _ (Classical.propDecidable _)]
  rfl

/-- The truncated NFW lens whose arguments are the variables of `tnfwConv`. -/
def tnfwAt (v : Fin 10 → ℝ) : TNFW where
  Gc2 := 0
  x0 := v 2
  y0 := v 3
  M0 := v 8
  Rs := v 5
  tau := v 6
  d_l := v 9
  d_s := 1
  d_ls := 1
  sigmacr := v 7
  s := v 4

theorem tnfwConv_sem : tnfwConv.sem = fun v => (tnfwAt v).convergence (v 0) (v 1) := by
  funext v
  unfold TNFW.convergence
  simp only []
  rw [← tnfwFEx_sem (n := 0) (fun _ => _)]
  rfl

theorem sersicEx_sem :
    sersicEx.sem = fun v => brightnessSersic (v 2) (v 3) (v 5) (v 6) (v 7) (v 8) (v 9) (v 0) (v 1) (v 10) (v 4) := rfl

/-- light/func/star_source.py where it is a number. -/
noncomputable def starReal (v : Fin 7 → ℝ) : ℝ := (brightnessStar (v 2) (v 3) (v 4) (v 5) (v 0) (v 1) (v 6)).getD 0

/-! ### Where the programs stay inside the domain of every operation -/

theorem centred_reg {n : ℕ} {both : Bool} {body : Ex (n + 8)} {ρ : Fin (n + 5) → ℝ}
    (hr : 0 < (ρ 0 - ρ 2) ^ 2 + (ρ 1 - ρ 3) ^ 2)
    (hb : body.Reg both (Fin.cons (α := fun _ => ℝ) (√((ρ 0 - ρ 2) ^ 2 + (ρ 1 - ρ 3) ^ 2) + ρ 4)
      (Fin.cons (α := fun _ => ℝ) (ρ 1 - ρ 3) (Fin.cons (α := fun _ => ℝ) (ρ 0 - ρ 2) ρ)))) :
    (centred body).Reg both ρ :=
  ⟨⟨trivial, trivial⟩, ⟨trivial, trivial⟩, ⟨⟨⟨⟨trivial, trivial⟩, ⟨trivial, trivial⟩⟩, hr⟩, trivial⟩, hb⟩

theorem clamp_gt {x : ℝ} {ε : ℝ} (hε : 0 < ε) :
    1 < max x (1 + ε) ∧ 0 < max x (1 + ε) ^ 2 - 1 ∧ |1 / max x (1 + ε)| < 1 := by
  have h : 1 < max x (1 + ε) := lt_of_lt_of_le (by linarith) (le_max_right _ _)
  refine ⟨h, by nlinarith, ?_⟩
  rw [abs_of_pos (by positivity), div_lt_one (by linarith)]
  exact h

theorem clamp_lt {x : ℝ} {ε : ℝ} (hε : 0 < ε) (hε1 : ε < 1) (hx : 0 < x) :
    0 < min x (1 - ε) ∧ min x (1 - ε) < 1 ∧ 0 < 1 - min x (1 - ε) ^ 2 ∧ 1 < 1 / min x (1 - ε) := by
  have h0 : 0 < min x (1 - ε) := lt_min hx (by linarith)
  have h1 : min x (1 - ε) < 1 := lt_of_le_of_lt (min_le_right _ _) (by linarith)
  exact ⟨h0, h1, by nlinarith, by rw [lt_div_iff₀ h0]; linarith⟩

/-- A radius, in units of the scale radius, that is positive and not one of the values at which `_f_nfw`, `_g_nfw` and
`_h_nfw` change formula. -/
structure NfwRadius (r : ℝ) : Prop where
  pos : 0 < r
  ne : r ≠ 1
  ne_gt : r ≠ 1 + 1e-6
  ne_lt : r ≠ 1 - 1e-6

theorem nfwHEx_reg {n : ℕ} {ρ : Fin (n + 1) → ℝ} (h : NfwRadius (ρ 0)) : nfwHEx.Reg true ρ := by
  obtain ⟨g1, g2, g3⟩ := clamp_gt (x := ρ 0) (ε := 1e-6) (by norm_num)
  obtain ⟨l0, l1, l2, l3⟩ := clamp_lt (x := ρ 0) (ε := 1e-6) (by norm_num) (by norm_num) h.pos
  have hg : max (ρ 0) (1 + 1e-6) ≠ 0 := by linarith
  exact ⟨⟨trivial, h.ne_gt⟩, ⟨trivial, h.ne_lt⟩, ⟨⟨trivial, trivial, two_ne_zero⟩, half_pos h.pos⟩,
    trivial, trivial, h.ne.symm,
    fun _ => ⟨⟨⟨trivial, trivial, hg⟩, g3⟩, ⟨⟨⟨trivial, trivial⟩, trivial⟩, g2⟩, (sqrt_pos.2 g2).ne'⟩,
    fun _ => ⟨trivial, trivial, h.ne,
      fun _ => ⟨⟨⟨trivial, trivial, l0.ne'⟩, l3⟩, ⟨⟨trivial, trivial, trivial⟩, l2⟩, (sqrt_pos.2 l2).ne'⟩,
      fun _ => trivial⟩⟩

theorem nfwGEx_reg {n : ℕ} {ρ : Fin (n + 1) → ℝ} (h : NfwRadius (ρ 0)) : nfwGEx.Reg true ρ := by
  obtain ⟨g1, g2, g3⟩ := clamp_gt (x := ρ 0) (ε := 1e-6) (by norm_num)
  obtain ⟨l0, l1, l2, l3⟩ := clamp_lt (x := ρ 0) (ε := 1e-6) (by norm_num) (by norm_num) h.pos
  have hg : max (ρ 0) (1 + 1e-6) ≠ 0 := by linarith
  exact ⟨⟨trivial, h.ne_gt⟩, ⟨trivial, h.ne_lt⟩, ⟨⟨⟨trivial, trivial, two_ne_zero⟩, half_pos h.pos⟩, trivial⟩,
    trivial, trivial, h.ne.symm,
    fun _ => ⟨⟨⟨trivial, trivial, hg⟩, g3⟩, trivial⟩,
    fun _ => ⟨trivial, trivial, h.ne, fun _ => ⟨⟨⟨trivial, trivial, l0.ne'⟩, l3⟩, trivial⟩, fun _ => trivial⟩⟩

theorem nfwFEx_reg {n : ℕ} {ρ : Fin (n + 1) → ℝ} (h : NfwRadius (ρ 0)) : nfwFEx.Reg true ρ := by
  obtain ⟨g1, g2, g3⟩ := clamp_gt (x := ρ 0) (ε := 1e-6) (by norm_num)
  obtain ⟨l0, l1, l2, l3⟩ := clamp_lt (x := ρ 0) (ε := 1e-6) (by norm_num) (by norm_num) h.pos
  have hg : max (ρ 0) (1 + 1e-6) + 1 ≠ 0 := by linarith
  have hg' : 0 < (max (ρ 0) (1 + 1e-6) - 1) / (max (ρ 0) (1 + 1e-6) + 1) := div_pos (by linarith) (by linarith)
  have hl : 1 + min (ρ 0) (1 - 1e-6) ≠ 0 := by linarith
  have hl' : 0 < (1 - min (ρ 0) (1 - 1e-6)) / (1 + min (ρ 0) (1 - 1e-6)) := div_pos (by linarith) (by linarith)
  have hl1 : |√((1 - min (ρ 0) (1 - 1e-6)) / (1 + min (ρ 0) (1 - 1e-6)))| < 1 := by
    rw [abs_of_nonneg (sqrt_nonneg _), sqrt_lt' one_pos, div_lt_iff₀ (by linarith)]
    linarith
  exact ⟨⟨trivial, h.ne_gt⟩, ⟨trivial, h.ne_lt⟩, trivial, trivial, h.ne.symm,
    fun _ => ⟨trivial, ⟨trivial, ⟨⟨⟨⟨trivial, trivial⟩, ⟨trivial, trivial⟩, hg⟩, hg'⟩, trivial⟩⟩,
      ⟨⟨⟨trivial, trivial⟩, trivial⟩, g2⟩, (sqrt_pos.2 g2).ne'⟩,
    fun _ => ⟨trivial, trivial, h.ne,
      fun _ => ⟨trivial, ⟨trivial, ⟨⟨⟨⟨trivial, trivial⟩, ⟨trivial, trivial⟩, hl⟩, hl'⟩, hl1⟩⟩,
        ⟨⟨trivial, trivial, trivial⟩, l2⟩, (sqrt_pos.2 l2).ne'⟩,
      fun _ => trivial⟩⟩

theorem tnfwFEx_reg {n : ℕ} {ρ : Fin (n + 1) → ℝ} (h : 0 < ρ 0) (h1 : ρ 0 ≠ 1 + 1e-3) (h2 : ρ 0 ≠ 1 - 1e-3)
    (h3 : ρ 0 ≠ 1 + 1e-2) (h4 : ρ 0 ≠ 1 - 1e-2) : tnfwFEx.Reg true ρ := by
  obtain ⟨g1, g2, g3⟩ := clamp_gt (x := ρ 0) (ε := 1e-3) (by norm_num)
  obtain ⟨l0, l1, l2, l3⟩ := clamp_lt (x := ρ 0) (ε := 1e-3) (by norm_num) (by norm_num) h
  have hg : max (ρ 0) (1 + 1e-3) ≠ 0 := by linarith
  exact ⟨⟨trivial, h1⟩, ⟨trivial, h2⟩, trivial, trivial, h4,
    fun _ => ⟨⟨⟨trivial, trivial, l0.ne'⟩, l3⟩, ⟨⟨trivial, trivial, trivial⟩, l2⟩, (sqrt_pos.2 l2).ne'⟩,
    fun _ => ⟨trivial, trivial, h3.symm,
      fun _ => ⟨⟨⟨trivial, trivial, hg⟩, g3⟩, ⟨⟨⟨trivial, trivial⟩, trivial⟩, g2⟩, (sqrt_pos.2 g2).ne'⟩,
      fun _ => ⟨⟨trivial, ⟨trivial, trivial, trivial⟩, trivial, three_ne_zero⟩,
        ⟨trivial, ⟨trivial, trivial⟩, trivial⟩, trivial, (by norm_num : (15 : ℝ) ≠ 0)⟩⟩⟩

end Caustics

import Verif.Model.AutoDiff
import Verif.Lemmas.RingBounds
import Mathlib.Analysis.Calculus.FDeriv.Prod
import Mathlib.Analysis.Calculus.FDeriv.Mul
import Mathlib.Analysis.Calculus.Deriv.Inv
import Mathlib.Analysis.Calculus.ContDiff.Basic
import Mathlib.Analysis.SpecialFunctions.Pow.Deriv
import Mathlib.Analysis.SpecialFunctions.Sqrt
import Mathlib.Analysis.SpecialFunctions.Log.Deriv
import Mathlib.Analysis.SpecialFunctions.Trigonometric.InverseDeriv
import Mathlib.Analysis.SpecialFunctions.Trigonometric.ArctanDeriv

/-! The function a program denotes on the reals, where the propagation rules are exact, and the proof that they are. -/

open Real Filter Topology

namespace Caustics

/-- The real function of one variable. -/
noncomputable def UnOp.real : UnOp → ℝ → ℝ
  | .sqrt => Real.sqrt
  | .log => Real.log
  | .exp => Real.exp
  | .atan => arctan
  | .atanh => artanh
  | .acos => arccos
  | .acosh => arcosh
  | .sin => Real.sin
  | .cos => Real.cos
  | .sq => fun x => x ^ 2
  | .cube => fun x => x ^ 3
  | .powc c => fun x => x ^ c

/-- Where it is smooth. -/
def UnOp.Dom : UnOp → ℝ → Prop
  | .sqrt, x => 0 < x
  | .log, x => 0 < x
  | .exp, _ => True
  | .atan, _ => True
  | .atanh, x => |x| < 1
  | .acos, x => |x| < 1
  | .acosh, x => 1 < x
  | .sin, _ => True
  | .cos, _ => True
  | .sq, _ => True
  | .cube, _ => True
  | .powc _, x => 0 < x

/-- The comparison of reals. -/
def Cmp.holds : Cmp → ℝ → ℝ → Prop
  | .lt, a, b => a < b
  | .le, a, b => a ≤ b
  | .eq, a, b => a = b

namespace Ex

open Classical in
/-- The function of real variables the program denotes. -/
noncomputable def sem : {n : ℕ} → Ex n → (Fin n → ℝ) → ℝ
  | _, var i, ρ => ρ i
  | _, const c, _ => c
  | _, add a b, ρ => a.sem ρ + b.sem ρ
  | _, sub a b, ρ => a.sem ρ - b.sem ρ
  | _, mul a b, ρ => a.sem ρ * b.sem ρ
  | _, div a b, ρ => a.sem ρ / b.sem ρ
  | _, neg a, ρ => -a.sem ρ
  | _, pow a b, ρ => a.sem ρ ^ b.sem ρ
  | _, un u a, ρ => u.real (a.sem ρ)
  | _, clampMin a c, ρ => max (a.sem ρ) c
  | _, clampMax a c, ρ => min (a.sem ρ) c
  | _, ite op a b t e, ρ => if op.holds (a.sem ρ) (b.sem ρ) then t.sem ρ else e.sem ρ
  | _, letE a b, ρ => b.sem (Fin.cons (α := fun _ => ℝ) (a.sem ρ) ρ)
  | _, detach a, ρ => a.sem ρ

/-- Every operation that is executed is inside its domain, no comparison is a tie and nothing is detached.  With
`both` the branch of a `where` that is not selected counts as executed, otherwise it does not. -/
def Reg (both : Bool) : {n : ℕ} → Ex n → (Fin n → ℝ) → Prop
  | _, var _, _ => True
  | _, const _, _ => True
  | _, add a b, ρ => a.Reg both ρ ∧ b.Reg both ρ
  | _, sub a b, ρ => a.Reg both ρ ∧ b.Reg both ρ
  | _, mul a b, ρ => a.Reg both ρ ∧ b.Reg both ρ
  | _, div a b, ρ => a.Reg both ρ ∧ b.Reg both ρ ∧ b.sem ρ ≠ 0
  | _, neg a, ρ => a.Reg both ρ
  | _, pow a b, ρ => a.Reg both ρ ∧ b.Reg both ρ ∧ 0 < a.sem ρ
  | _, un u a, ρ => a.Reg both ρ ∧ u.Dom (a.sem ρ)
  | _, clampMin a c, ρ => a.Reg both ρ ∧ a.sem ρ ≠ c
  | _, clampMax a c, ρ => a.Reg both ρ ∧ a.sem ρ ≠ c
  | _, ite op a b t e, ρ => a.Reg both ρ ∧ b.Reg both ρ ∧ a.sem ρ ≠ b.sem ρ ∧
      (both = true ∨ op.holds (a.sem ρ) (b.sem ρ) → t.Reg both ρ) ∧
      (both = true ∨ ¬op.holds (a.sem ρ) (b.sem ρ) → e.Reg both ρ)
  | _, letE a b, ρ => a.Reg both ρ ∧ b.Reg both (Fin.cons (α := fun _ => ℝ) (a.sem ρ) ρ)
  | _, detach _, _ => False

end Ex

/-- A tuple of reals as a tuple of floats. -/
def XR.ofReals {n : ℕ} (ρ : Fin n → ℝ) : Fin n → XR := fun i => .fin (ρ i)

theorem XR.ofReals_cons {n : ℕ} (a : ℝ) (ρ : Fin n → ℝ) :
    Fin.cons (α := fun _ => XR) (.fin a) (ofReals ρ) = ofReals (Fin.cons (α := fun _ => ℝ) a ρ) := by
  funext i
  refine Fin.cases ?_ (fun i => ?_) i <;> simp [ofReals]

theorem UnOp.val_dom {u : UnOp} {x : ℝ} (h : u.Dom x) : u.val x = .fin (u.real x) := by
  cases u <;> simp only [UnOp.Dom] at h <;> simp only [UnOp.val, UnOp.real]
  · rw [if_pos h.le]
  · rw [if_pos h]
  · rw [if_pos h]
  · rw [if_pos h.le]
  · rw [if_pos h.le]
  · rw [if_pos h]

/-- The factor is the derivative of the operation. -/
theorem UnOp.coef_dom {u : UnOp} {x : ℝ} (h : u.Dom x) :
    ∃ c, u.coef x = .fin c ∧ HasDerivAt u.real c x := by
  cases u <;> simp only [UnOp.Dom] at h <;> simp only [UnOp.coef, UnOp.real]
  · exact ⟨_, if_pos h, Real.hasDerivAt_sqrt h.ne'⟩
  · exact ⟨_, if_neg h.ne', by rw [one_div]; exact Real.hasDerivAt_log h.ne'⟩
  · exact ⟨_, rfl, Real.hasDerivAt_exp x⟩
  · exact ⟨_, rfl, Real.hasDerivAt_arctan x⟩
  · have h1 := abs_lt.1 h
    have : 1 - x ^ 2 ≠ 0 := by nlinarith
    exact ⟨_, if_neg this, hasDerivAt_artanh ⟨h1.1, h1.2⟩⟩
  · have h1 := abs_lt.1 h
    have : 0 < 1 - x ^ 2 := by nlinarith
    exact ⟨_, if_pos this, Real.hasDerivAt_arccos h1.1.ne' h1.2.ne⟩
  · have : 0 < x ^ 2 - 1 := by nlinarith
    exact ⟨_, if_pos this, by rw [one_div]; exact Real.hasDerivAt_arcosh h⟩
  · exact ⟨_, rfl, Real.hasDerivAt_sin x⟩
  · exact ⟨_, rfl, Real.hasDerivAt_cos x⟩
  · exact ⟨_, rfl, by simpa using hasDerivAt_pow 2 x⟩
  · exact ⟨_, rfl, by simpa using hasDerivAt_pow 3 x⟩
  · exact ⟨_, if_pos h, Real.hasDerivAt_rpow_const (Or.inl h.ne')⟩

open Classical in
theorem Cmp.test_fin (op : Cmp) (a b : ℝ) : op.test (.fin a) (.fin b) = some (decide (op.holds a b)) := by
  cases op <;> simp only [Cmp.test, Cmp.holds] <;> congr

/-- A comparison that is not a tie keeps its outcome nearby. -/
theorem Cmp.eventually {E : Type*} [TopologicalSpace E] (op : Cmp) {f g : E → ℝ} {x : E} (hf : ContinuousAt f x)
    (hg : ContinuousAt g x) (h : f x ≠ g x) : ∀ᶠ y in 𝓝 x, (op.holds (f y) (g y) ↔ op.holds (f x) (g x)) := by
  rcases lt_or_gt_of_ne h with h1 | h1
  · filter_upwards [hf.eventually_lt hg h1] with y hy
    cases op <;> simp [Cmp.holds, h1, hy, h1.le, hy.le, h1.ne, hy.ne]
  · filter_upwards [hg.eventually_lt hf h1] with y hy
    cases op <;> simp [Cmp.holds, h1.ne', hy.ne', not_lt.2 h1.le, not_lt.2 hy.le, not_le.2 h1, not_le.2 hy]

namespace Ex

theorem Reg.weaken {n : ℕ} {e : Ex n} {ρ : Fin n → ℝ} (h : e.Reg true ρ) : e.Reg false ρ := by
  induction e with
  | var | const => trivial
  | add a b iha ihb | sub a b iha ihb | mul a b iha ihb => exact ⟨iha h.1, ihb h.2⟩
  | div a b iha ihb | pow a b iha ihb => exact ⟨iha h.1, ihb h.2.1, h.2.2⟩
  | neg a ih => exact ih h
  | un u a ih => exact ⟨ih h.1, h.2⟩
  | clampMin a c ih | clampMax a c ih => exact ⟨ih h.1, h.2⟩
  | ite op a b t e iha ihb iht ihe =>
    exact ⟨iha h.1, ihb h.2.1, h.2.2.1, fun _ => iht (h.2.2.2.1 (.inl rfl)), fun _ => ihe (h.2.2.2.2 (.inl rfl))⟩
  | letE a b iha ihb => exact ⟨iha h.1, ihb h.2⟩
  | detach => exact h.elim

theorem val_reg {n : ℕ} {e : Ex n} {ρ : Fin n → ℝ} (h : e.Reg false ρ) :
    e.val (XR.ofReals ρ) = .fin (e.sem ρ) := by
  classical
  induction e with
  | var | const => rfl
  | add a b iha ihb | mul a b iha ihb => simp [val, sem, iha h.1, ihb h.2, XR.add, XR.mul]
  | sub a b iha ihb => simp [val, sem, iha h.1, ihb h.2, XR.add, XR.neg, sub_eq_add_neg]
  | div a b iha ihb => simp [val, sem, iha h.1, ihb h.2.1, XR.div, h.2.2]
  | pow a b iha ihb => simp [val, sem, iha h.1, ihb h.2.1, XR.pow, h.2.2]
  | neg a ih => simp [val, sem, ih h, XR.neg]
  | un u a ih => simp [val, sem, ih h.1, XR.lift, UnOp.val_dom h.2]
  | clampMin a c ih | clampMax a c ih => simp [val, sem, ih h.1, XR.lift]
  | ite op a b t e iha ihb iht ihe =>
    simp only [val, sem, iha h.1, ihb h.2.1, Cmp.test_fin]
    rename_i ρ
    by_cases hc : op.holds (a.sem ρ) (b.sem ρ)
    · simp [hc, iht (h.2.2.2.1 (.inr hc))]
    · simp [hc, ihe (h.2.2.2.2 (.inr hc))]
  | letE a b iha ihb => simp only [val, sem, iha h.1, XR.ofReals_cons, ihb h.2]
  | detach => exact h.elim

/-- The derivative of `ρ ↦ (a ρ, ρ)`. -/
theorem hasFDerivAt_cons {n : ℕ} {f : (Fin n → ℝ) → ℝ} {D : (Fin n → ℝ) →L[ℝ] ℝ} {ρ : Fin n → ℝ}
    (h : HasFDerivAt f D ρ) :
    HasFDerivAt (fun ρ => Fin.cons (α := fun _ => ℝ) (f ρ) ρ)
      (ContinuousLinearMap.pi (Fin.cons (α := fun _ => (Fin n → ℝ) →L[ℝ] ℝ) D
        (fun i => ContinuousLinearMap.proj i))) ρ := by
  rw [hasFDerivAt_pi']
  intro i
  refine Fin.cases ?_ (fun i => ?_) i
  · exact h
  · exact hasFDerivAt_apply (𝕜 := ℝ) i ρ

theorem div_hasFDerivAt {E : Type*} [NormedAddCommGroup E] [NormedSpace ℝ E] {f g : E → ℝ} {A B : E →L[ℝ] ℝ} {x : E}
    (hf : HasFDerivAt f A x) (hg : HasFDerivAt g B x) (h : g x ≠ 0) :
    HasFDerivAt (fun y => f y / g y) ((g x)⁻¹ • (A - (f x / g x) • B)) x := by
  have h1 := hf.mul ((hasDerivAt_inv h).comp_hasFDerivAt x hg)
  have h2 : (fun y => f y / g y) = f * (fun y => y⁻¹) ∘ g := by
    funext y
    simp [div_eq_mul_inv]
  rw [h2]
  refine h1.congr_fderiv ?_
  ext v
  simp
  field_simp
  ring

theorem clampMin_hasFDerivAt {E : Type*} [NormedAddCommGroup E] [NormedSpace ℝ E] {f : E → ℝ} {D : E →L[ℝ] ℝ} {x : E}
    {c : ℝ} (h : HasFDerivAt f D x) (hc : f x ≠ c) :
    HasFDerivAt (fun y => max (f y) c) (if c ≤ f x then D else 0) x := by
  rcases lt_or_gt_of_ne hc with h1 | h1
  · rw [if_neg (not_le.2 h1)]
    refine (hasFDerivAt_const c x).congr_of_eventuallyEq ?_
    filter_upwards [h.continuousAt.eventually_lt continuousAt_const h1] with y hy using max_eq_right hy.le
  · rw [if_pos h1.le]
    refine h.congr_of_eventuallyEq ?_
    filter_upwards [continuousAt_const.eventually_lt h.continuousAt h1] with y hy using max_eq_left hy.le

theorem clampMax_hasFDerivAt {E : Type*} [NormedAddCommGroup E] [NormedSpace ℝ E] {f : E → ℝ} {D : E →L[ℝ] ℝ} {x : E}
    {c : ℝ} (h : HasFDerivAt f D x) (hc : f x ≠ c) :
    HasFDerivAt (fun y => min (f y) c) (if f x ≤ c then D else 0) x := by
  rcases lt_or_gt_of_ne hc with h1 | h1
  · rw [if_pos h1.le]
    refine h.congr_of_eventuallyEq ?_
    filter_upwards [h.continuousAt.eventually_lt continuousAt_const h1] with y hy using min_eq_left hy.le
  · rw [if_neg (not_le.2 h1)]
    refine (hasFDerivAt_const c x).congr_of_eventuallyEq ?_
    filter_upwards [continuousAt_const.eventually_lt h.continuousAt h1] with y hy using min_eq_right hy.le

/-- Forward mode is exact. -/
theorem fwd_reg {n : ℕ} {e : Ex n} {ρ : Fin n → ℝ} (h : e.Reg false ρ) :
    ∃ D : (Fin n → ℝ) →L[ℝ] ℝ, HasFDerivAt e.sem D ρ ∧
      ∀ d, e.fwd (XR.ofReals ρ) (XR.ofReals d) = .fin (D d) := by
  classical
  induction e with
  | var i => exact ⟨ContinuousLinearMap.proj i, hasFDerivAt_apply (𝕜 := ℝ) i ρ, fun d => rfl⟩
  | const c => exact ⟨0, hasFDerivAt_const c ρ, fun d => rfl⟩
  | add a b iha ihb =>
    obtain ⟨A, hA, fA⟩ := iha h.1
    obtain ⟨B, hB, fB⟩ := ihb h.2
    exact ⟨A + B, hA.add hB, fun d => by simp [fwd, fA, fB, XR.add]⟩
  | sub a b iha ihb =>
    obtain ⟨A, hA, fA⟩ := iha h.1
    obtain ⟨B, hB, fB⟩ := ihb h.2
    exact ⟨A - B, hA.sub hB, fun d => by simp [fwd, fA, fB, XR.add, XR.neg, sub_eq_add_neg]⟩
  | mul a b iha ihb =>
    obtain ⟨A, hA, fA⟩ := iha h.1
    obtain ⟨B, hB, fB⟩ := ihb h.2
    exact ⟨_, hA.mul hB, fun d => by
      simp [fwd, fA, fB, val_reg h.1, val_reg h.2, XR.add, XR.mul]; ring⟩
  | div a b iha ihb =>
    obtain ⟨A, hA, fA⟩ := iha h.1
    obtain ⟨B, hB, fB⟩ := ihb h.2.1
    refine ⟨_, div_hasFDerivAt hA hB h.2.2, fun d => ?_⟩
    simp [fwd, fA, fB, val_reg h.1, val_reg h.2.1, XR.add, XR.mul, XR.div, XR.neg, h.2.2]
    have := h.2.2
    field_simp
    ring
  | neg a ih =>
    obtain ⟨A, hA, fA⟩ := ih h
    exact ⟨-A, hA.neg, fun d => by simp [fwd, fA, XR.neg]⟩
  | pow a b iha ihb =>
    obtain ⟨A, hA, fA⟩ := iha h.1
    obtain ⟨B, hB, fB⟩ := ihb h.2.1
    refine ⟨_, hA.rpow hB h.2.2, fun d => ?_⟩
    simp [fwd, fA, fB, val_reg h.1, val_reg h.2.1, XR.add, XR.mul, XR.powBase, XR.powExp, h.2.2]
    ring
  | un u a ih =>
    obtain ⟨A, hA, fA⟩ := ih h.1
    obtain ⟨c, hc, hD⟩ := UnOp.coef_dom h.2
    exact ⟨_, hD.comp_hasFDerivAt ρ hA, fun d => by
      simp [fwd, fA, val_reg h.1, XR.lift, hc, XR.mul, mul_comm]⟩
  | clampMin a c ih =>
    obtain ⟨A, hA, fA⟩ := ih h.1
    refine ⟨_, clampMin_hasFDerivAt hA h.2, fun d => ?_⟩
    simp only [fwd, fA, val_reg h.1, mask]
    split <;> simp
  | clampMax a c ih =>
    obtain ⟨A, hA, fA⟩ := ih h.1
    refine ⟨_, clampMax_hasFDerivAt hA h.2, fun d => ?_⟩
    simp only [fwd, fA, val_reg h.1, mask]
    split <;> simp
  | ite op a b t e iha ihb iht ihe =>
    obtain ⟨A, hA, -⟩ := iha h.1
    obtain ⟨B, hB, -⟩ := ihb h.2.1
    have hev := op.eventually hA.continuousAt hB.continuousAt h.2.2.1
    by_cases hc : op.holds (a.sem ρ) (b.sem ρ)
    · obtain ⟨T, hT, fT⟩ := iht (h.2.2.2.1 (.inr hc))
      refine ⟨T, hT.congr_of_eventuallyEq ?_, fun d => ?_⟩
      · filter_upwards [hev] with y hy
        simp [sem, hy, hc]
      · simp [fwd, val_reg h.1, val_reg h.2.1, Cmp.test_fin, hc, fT]
    · obtain ⟨T, hT, fT⟩ := ihe (h.2.2.2.2 (.inr hc))
      refine ⟨T, hT.congr_of_eventuallyEq ?_, fun d => ?_⟩
      · filter_upwards [hev] with y hy
        simp [sem, hy, hc]
      · simp [fwd, val_reg h.1, val_reg h.2.1, Cmp.test_fin, hc, fT]
  | letE a b iha ihb =>
    obtain ⟨A, hA, fA⟩ := iha h.1
    obtain ⟨B, hB, fB⟩ := ihb h.2
    refine ⟨_, HasFDerivAt.comp ρ hB (hasFDerivAt_cons hA), fun d => ?_⟩
    simp only [fwd, fA, val_reg h.1, XR.ofReals_cons, fB]
    congr 1
    show B _ = B _
    congr 1
    funext i
    refine Fin.cases ?_ (fun i => ?_) i <;> simp
  | detach => exact h.elim

/-- Zero in, zero out; and reverse mode is linear in what comes in. -/
theorem rev_reg {n : ℕ} {e : Ex n} {ρ : Fin n → ℝ} (h : e.Reg true ρ) {D : (Fin n → ℝ) →L[ℝ] ℝ}
    (hD : HasFDerivAt e.sem D ρ) (g : ℝ) (k : Fin n) :
    e.rev (XR.ofReals ρ) (.fin g) k = .fin (g * D (Pi.single k 1)) := by
  classical
  induction e generalizing g with
  | var i =>
    have : D = ContinuousLinearMap.proj i := hD.unique (hasFDerivAt_apply (𝕜 := ℝ) i ρ)
    subst this
    by_cases hk : k = i <;> simp [rev, hk]
  | const c =>
    have : D = 0 := hD.unique (hasFDerivAt_const c ρ)
    subst this
    simp [rev]
  | add a b iha ihb =>
    obtain ⟨A, hA, -⟩ := fwd_reg h.1.weaken
    obtain ⟨B, hB, -⟩ := fwd_reg h.2.weaken
    obtain rfl : D = A + B := hD.unique (hA.add hB)
    simp [rev, iha h.1 hA, ihb h.2 hB, XR.add, mul_add]
  | sub a b iha ihb =>
    obtain ⟨A, hA, -⟩ := fwd_reg h.1.weaken
    obtain ⟨B, hB, -⟩ := fwd_reg h.2.weaken
    obtain rfl : D = A - B := hD.unique (hA.sub hB)
    simp [rev, iha h.1 hA, ihb h.2 hB, XR.add, XR.neg]
    ring
  | mul a b iha ihb =>
    obtain ⟨A, hA, -⟩ := fwd_reg h.1.weaken
    obtain ⟨B, hB, -⟩ := fwd_reg h.2.weaken
    have := hD.unique (hA.mul hB)
    subst this
    simp [rev, val_reg h.1.weaken, val_reg h.2.weaken, XR.mul, iha h.1 hA, ihb h.2 hB, XR.add]
    ring
  | div a b iha ihb =>
    obtain ⟨A, hA, -⟩ := fwd_reg h.1.weaken
    obtain ⟨B, hB, -⟩ := fwd_reg h.2.1.weaken
    have := hD.unique (div_hasFDerivAt hA hB h.2.2)
    subst this
    simp [rev, val_reg h.1.weaken, val_reg h.2.1.weaken, XR.mul, XR.div, XR.neg, h.2.2, iha h.1 hA, ihb h.2.1 hB,
      XR.add]
    have := h.2.2
    field_simp
    ring
  | neg a ih =>
    obtain ⟨A, hA, -⟩ := fwd_reg (e := a) (Reg.weaken h)
    obtain rfl : D = -A := hD.unique hA.neg
    simp [rev, XR.neg, ih h hA]
  | pow a b iha ihb =>
    obtain ⟨A, hA, -⟩ := fwd_reg h.1.weaken
    obtain ⟨B, hB, -⟩ := fwd_reg h.2.1.weaken
    have := hD.unique (hA.rpow hB h.2.2)
    subst this
    simp [rev, val_reg h.1.weaken, val_reg h.2.1.weaken, XR.powBase, XR.powExp, h.2.2, XR.mul, iha h.1 hA,
      ihb h.2.1 hB, XR.add]
    ring
  | un u a ih =>
    obtain ⟨A, hA, -⟩ := fwd_reg h.1.weaken
    obtain ⟨c, hc, hd⟩ := UnOp.coef_dom h.2
    have := hD.unique (hd.comp_hasFDerivAt ρ hA)
    subst this
    simp [rev, val_reg h.1.weaken, XR.lift, hc, XR.mul, ih h.1 hA, mul_assoc]
  | clampMin a c ih =>
    obtain ⟨A, hA, -⟩ := fwd_reg h.1.weaken
    have := hD.unique (clampMin_hasFDerivAt hA h.2)
    subst this
    by_cases hc : c ≤ a.sem ρ <;> simp [rev, val_reg h.1.weaken, mask, hc, ih h.1 hA]
  | clampMax a c ih =>
    obtain ⟨A, hA, -⟩ := fwd_reg h.1.weaken
    have := hD.unique (clampMax_hasFDerivAt hA h.2)
    subst this
    by_cases hc : a.sem ρ ≤ c <;> simp [rev, val_reg h.1.weaken, mask, hc, ih h.1 hA]
  | ite op a b t e iha ihb iht ihe =>
    obtain ⟨A, hA, -⟩ := fwd_reg h.1.weaken
    obtain ⟨B, hB, -⟩ := fwd_reg h.2.1.weaken
    have ht := h.2.2.2.1 (.inl rfl)
    have he := h.2.2.2.2 (.inl rfl)
    obtain ⟨T, hT, -⟩ := fwd_reg ht.weaken
    obtain ⟨E, hE, -⟩ := fwd_reg he.weaken
    have hev := op.eventually hA.continuousAt hB.continuousAt h.2.2.1
    by_cases hc : op.holds (a.sem ρ) (b.sem ρ)
    · have : D = T := by
        refine hD.unique (hT.congr_of_eventuallyEq ?_)
        filter_upwards [hev] with y hy
        simp [sem, hy, hc]
      subst this
      simp [rev, val_reg h.1.weaken, val_reg h.2.1.weaken, Cmp.test_fin, hc, iht ht hT, ihe he hE, XR.add]
    · have : D = E := by
        refine hD.unique (hE.congr_of_eventuallyEq ?_)
        filter_upwards [hev] with y hy
        simp [sem, hy, hc]
      subst this
      simp [rev, val_reg h.1.weaken, val_reg h.2.1.weaken, Cmp.test_fin, hc, iht ht hT, ihe he hE, XR.add]
  | letE a b iha ihb =>
    obtain ⟨A, hA, -⟩ := fwd_reg h.1.weaken
    obtain ⟨B, hB, -⟩ := fwd_reg h.2.weaken
    have := hD.unique (HasFDerivAt.comp ρ hB (hasFDerivAt_cons hA))
    subst this
    simp only [rev, val_reg h.1.weaken, XR.ofReals_cons, ihb h.2 hB, iha h.1 hA, XR.add]
    congr 1
    rw [mul_assoc, ← mul_add]
    congr 1
    show _ = B _
    have : ((ContinuousLinearMap.pi (Fin.cons (α := fun _ => (Fin _ → ℝ) →L[ℝ] ℝ) A
        (fun i => ContinuousLinearMap.proj i))) (Pi.single k 1) : Fin _ → ℝ)
        = Pi.single k.succ 1 + A (Pi.single k 1) • Pi.single 0 1 := by
      funext i
      refine Fin.cases ?_ (fun i => ?_) i
      · simp
      · simp [Pi.single_apply]
    refine Eq.trans ?_ (congrArg B this).symm
    rw [map_add, map_smul, smul_eq_mul]
    ring
  | detach => exact h.elim

end Ex

end Caustics

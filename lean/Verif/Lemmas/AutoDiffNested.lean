import Verif.Model.AutoDiffNested
import Verif.Lemmas.AutoDiffPrograms

/-! Where a program may be differentiated, so may the program of its derivative. -/

open Real Filter Topology

namespace Caustics

namespace Ex

theorem comp_cases {α : Type*} {n m : ℕ} (a : α) (ρ : Fin m → α) (p : Fin n → Fin m) :
    (fun i => Fin.cons (α := fun _ => α) a ρ ((Fin.cases 0 fun i => (p i).succ : Fin (n + 1) → Fin (m + 1)) i))
      = Fin.cons (α := fun _ => α) a fun i => ρ (p i) := by
  funext i
  refine Fin.cases ?_ (fun i => ?_) i <;> simp

theorem ren_sem {n m : ℕ} (e : Ex n) (p : Fin n → Fin m) (ρ : Fin m → ℝ) :
    (e.ren p).sem ρ = e.sem fun i => ρ (p i) := by
  induction e generalizing m with
  | var | const => rfl
  | add a b iha ihb | sub a b iha ihb | mul a b iha ihb | div a b iha ihb | pow a b iha ihb =>
    simp only [ren, sem, iha, ihb]
  | neg a ih | un u a ih | clampMin a c ih | clampMax a c ih | detach a ih => simp only [ren, sem, ih]
  | ite op a b t e iha ihb iht ihe =>
    simp only [ren, sem]
    rw [iha, ihb, iht, ihe]
  | letE a b iha ihb => simp only [ren, sem, iha, ihb, comp_cases]

theorem ren_reg {both : Bool} {n m : ℕ} (e : Ex n) (p : Fin n → Fin m) (ρ : Fin m → ℝ) :
    (e.ren p).Reg both ρ ↔ e.Reg both fun i => ρ (p i) := by
  induction e generalizing m with
  | var | const | detach => exact Iff.rfl
  | add a b iha ihb | sub a b iha ihb | mul a b iha ihb | div a b iha ihb | pow a b iha ihb =>
    simp only [ren, Reg, iha, ihb, ren_sem]
  | neg a ih | un u a ih | clampMin a c ih | clampMax a c ih => simp only [ren, Reg, ih, ren_sem]
  | ite op a b t e iha ihb iht ihe => simp only [ren, Reg, iha, ihb, iht, ihe, ren_sem]
  | letE a b iha ihb => simp only [ren, Reg, iha, ihb, comp_cases, ren_sem]

/-- What the derivatives of the variables are. -/
def dirOf {n m : ℕ} (t : Fin n → Dual m) (ρ : Fin m → ℝ) : Fin n → ℝ := fun i =>
  match t i with
  | .inl j => ρ j
  | .inr c => c

theorem dirOf_shift {m : ℕ} (a b : ℝ) (ρ : Fin m → ℝ) {n : ℕ} (t : Fin n → Dual m) :
    dirOf (Fin.cases (.inl 0) fun i => (t i).shift.shift : Fin (n + 1) → Dual (m + 1 + 1))
      (Fin.cons (α := fun _ => ℝ) a (Fin.cons (α := fun _ => ℝ) b ρ)) = Fin.cons (α := fun _ => ℝ) a (dirOf t ρ) := by
  funext i
  refine Fin.cases ?_ (fun i => ?_) i
  · simp [dirOf]
  · simp only [dirOf, Fin.cases_succ, Fin.cons_succ]
    cases t i <;> simp [Dual.shift]

theorem comp_cases_two {α : Type*} {n m : ℕ} (a b : α) (ρ : Fin m → α) (p : Fin n → Fin m) :
    (fun i => Fin.cons (α := fun _ => α) a (Fin.cons (α := fun _ => α) b ρ)
      ((Fin.cases 1 fun i => (p i).succ.succ : Fin (n + 1) → Fin (m + 1 + 1)) i))
      = Fin.cons (α := fun _ => α) b fun i => ρ (p i) := by
  funext i
  refine Fin.cases ?_ (fun i => ?_) i
  · rfl
  · simp

theorem coefEx_reg {both : Bool} {n : ℕ} {u : UnOp} {a : Ex n} {ρ : Fin n → ℝ} (h : a.Reg both ρ)
    (hd : u.Dom (a.sem ρ)) : (coefEx u a).Reg both ρ := by
  cases u <;> simp only [UnOp.Dom] at hd
  · exact ⟨trivial, ⟨trivial, h, hd⟩, mul_ne_zero two_ne_zero (sqrt_pos.2 hd).ne'⟩
  · exact ⟨trivial, h, hd.ne'⟩
  · exact ⟨h, trivial⟩
  · exact ⟨trivial, ⟨trivial, h, trivial⟩, (by positivity : 1 + (a.sem ρ) ^ 2 ≠ 0)⟩
  · have h1 := abs_lt.1 hd
    have : 1 - (a.sem ρ) ^ 2 ≠ 0 := by nlinarith
    exact ⟨trivial, ⟨trivial, h, trivial⟩, this⟩
  · have h1 := abs_lt.1 hd
    have : 0 < 1 - (a.sem ρ) ^ 2 := by nlinarith
    exact ⟨trivial, ⟨⟨trivial, h, trivial⟩, this⟩, (sqrt_pos.2 this).ne'⟩
  · have : 0 < (a.sem ρ) ^ 2 - 1 := by nlinarith
    exact ⟨trivial, ⟨⟨⟨h, trivial⟩, trivial⟩, this⟩, (sqrt_pos.2 this).ne'⟩
  · exact ⟨h, trivial⟩
  · exact ⟨h, trivial⟩
  · exact ⟨trivial, h⟩
  · exact ⟨trivial, h, trivial⟩
  · exact ⟨trivial, h, hd⟩

theorem coefEx_sem {n : ℕ} {u : UnOp} {a : Ex n} {ρ : Fin n → ℝ} (hd : u.Dom (a.sem ρ)) :
    HasDerivAt u.real ((coefEx u a).sem ρ) (a.sem ρ) := by
  obtain ⟨c, hc, h⟩ := UnOp.coef_dom hd
  convert h
  have e : ∀ {c' : ℝ}, XR.fin c = .fin c' → c' = c := fun h => by injection h with h; exact h.symm
  cases u <;> simp only [UnOp.Dom] at hd <;> simp only [UnOp.coef] at hc
  · rw [if_pos hd] at hc; exact e hc.symm
  · rw [if_neg hd.ne'] at hc; exact e hc.symm
  · exact e hc.symm
  · exact e hc.symm
  · have h1 := abs_lt.1 hd
    have : 1 - (a.sem ρ) ^ 2 ≠ 0 := by nlinarith
    rw [if_neg this] at hc; exact e hc.symm
  · have h1 := abs_lt.1 hd
    have : 0 < 1 - (a.sem ρ) ^ 2 := by nlinarith
    rw [if_pos this] at hc; exact e hc.symm
  · have : 0 < (a.sem ρ) ^ 2 - 1 := by nlinarith
    rw [if_pos this] at hc; exact e hc.symm
  · exact e hc.symm
  · exact e hc.symm
  · exact e hc.symm
  · exact e hc.symm
  · rw [if_pos hd] at hc; exact e hc.symm

/-- The derivative program is inside the domain of its operations where the program is. -/
theorem tangent_reg {both : Bool} {n m : ℕ} {e : Ex n} {p : Fin n → Fin m} {t : Fin n → Dual m} {ρ : Fin m → ℝ}
    (h : e.Reg both fun i => ρ (p i)) : (e.tangent p t).Reg both ρ := by
  induction e generalizing m with
  | var i =>
    simp only [tangent]
    cases t i <;> trivial
  | const => trivial
  | add a b iha ihb | sub a b iha ihb => exact ⟨iha h.1, ihb h.2⟩
  | mul a b iha ihb => exact ⟨⟨iha h.1, (ren_reg b p ρ).2 h.2⟩, (ren_reg a p ρ).2 h.1, ihb h.2⟩
  | div a b iha ihb =>
    have ha := (ren_reg a p ρ).2 h.1
    have hb := (ren_reg b p ρ).2 h.2.1
    have hn : (b.ren p).sem ρ ≠ 0 := by rw [ren_sem]; exact h.2.2
    exact ⟨⟨iha h.1, ihb h.2.1, ha, hb, hn⟩, hb, hn⟩
  | neg a ih => exact ih h
  | pow a b iha ihb =>
    have ha := (ren_reg a p ρ).2 h.1
    have hb := (ren_reg b p ρ).2 h.2.1
    have hn : 0 < (a.ren p).sem ρ := by rw [ren_sem]; exact h.2.2
    exact ⟨⟨iha h.1, hb, ha, ⟨hb, trivial⟩, hn⟩, ihb h.2.1, ⟨ha, hb, hn⟩, ha, hn⟩
  | un u a ih =>
    exact ⟨ih h.1, coefEx_reg ((ren_reg a p ρ).2 h.1) (by rw [ren_sem]; exact h.2)⟩
  | clampMin a c ih =>
    exact ⟨trivial, (ren_reg a p ρ).2 h.1, by rw [ren_sem]; exact h.2.symm, fun _ => ih h.1, fun _ => trivial⟩
  | clampMax a c ih =>
    exact ⟨(ren_reg a p ρ).2 h.1, trivial, by rw [ren_sem]; exact h.2, fun _ => ih h.1, fun _ => trivial⟩
  | ite op a b f e iha ihb ihf ihe =>
    refine ⟨(ren_reg a p ρ).2 h.1, (ren_reg b p ρ).2 h.2.1, by rw [ren_sem, ren_sem]; exact h.2.2.1, ?_, ?_⟩
    · rw [ren_sem, ren_sem]
      exact fun hc => ihf (h.2.2.2.1 hc)
    · rw [ren_sem, ren_sem]
      exact fun hc => ihe (h.2.2.2.2 hc)
  | letE a b iha ihb =>
    refine ⟨(ren_reg a p ρ).2 h.1, (ren_reg _ _ _).2 ?_, ihb ?_⟩
    · simpa using iha h.1
    · rw [comp_cases_two, ren_sem]
      exact h.2
  | detach => exact h.elim

/-- The derivative program computes the derivative. -/
theorem tangent_sem {n m : ℕ} {e : Ex n} {p : Fin n → Fin m} {t : Fin n → Dual m} {ρ : Fin m → ℝ}
    (h : e.Reg false fun i => ρ (p i)) :
    ∃ D : (Fin n → ℝ) →L[ℝ] ℝ, HasFDerivAt e.sem D (fun i => ρ (p i)) ∧ (e.tangent p t).sem ρ = D (dirOf t ρ) := by
  classical
  induction e generalizing m with
  | var i =>
    refine ⟨ContinuousLinearMap.proj i, hasFDerivAt_apply (𝕜 := ℝ) i _, ?_⟩
    simp only [tangent, dirOf, ContinuousLinearMap.proj_apply]
    cases t i <;> rfl
  | const c => exact ⟨0, hasFDerivAt_const c _, rfl⟩
  | add a b iha ihb =>
    obtain ⟨A, hA, fA⟩ := iha (t := t) h.1
    obtain ⟨B, hB, fB⟩ := ihb (t := t) h.2
    exact ⟨A + B, hA.add hB, by
      show (a.tangent p t).sem ρ + (b.tangent p t).sem ρ = _
      rw [fA, fB]; rfl⟩
  | sub a b iha ihb =>
    obtain ⟨A, hA, fA⟩ := iha (t := t) h.1
    obtain ⟨B, hB, fB⟩ := ihb (t := t) h.2
    exact ⟨A - B, hA.sub hB, by
      show (a.tangent p t).sem ρ - (b.tangent p t).sem ρ = _
      rw [fA, fB]; rfl⟩
  | mul a b iha ihb =>
    obtain ⟨A, hA, fA⟩ := iha (t := t) h.1
    obtain ⟨B, hB, fB⟩ := ihb (t := t) h.2
    refine ⟨_, hA.mul hB, ?_⟩
    show (a.tangent p t).sem ρ * (b.ren p).sem ρ + (a.ren p).sem ρ * (b.tangent p t).sem ρ = _
    rw [fA, fB, ren_sem, ren_sem]
    simp
    ring
  | div a b iha ihb =>
    obtain ⟨A, hA, fA⟩ := iha (t := t) h.1
    obtain ⟨B, hB, fB⟩ := ihb (t := t) h.2.1
    refine ⟨_, div_hasFDerivAt hA hB h.2.2, ?_⟩
    show ((a.tangent p t).sem ρ - (b.tangent p t).sem ρ * ((a.ren p).sem ρ / (b.ren p).sem ρ)) / (b.ren p).sem ρ = _
    rw [fA, fB, ren_sem, ren_sem]
    simp
    have := h.2.2
    field_simp
  | neg a ih =>
    obtain ⟨A, hA, fA⟩ := ih (t := t) h
    exact ⟨-A, hA.neg, by
      show -(a.tangent p t).sem ρ = _
      rw [fA]; rfl⟩
  | pow a b iha ihb =>
    obtain ⟨A, hA, fA⟩ := iha (t := t) h.1
    obtain ⟨B, hB, fB⟩ := ihb (t := t) h.2.1
    refine ⟨_, hA.rpow hB h.2.2, ?_⟩
    show (a.tangent p t).sem ρ * ((b.ren p).sem ρ * (a.ren p).sem ρ ^ ((b.ren p).sem ρ - 1))
      + (b.tangent p t).sem ρ * ((a.ren p).sem ρ ^ (b.ren p).sem ρ * Real.log ((a.ren p).sem ρ)) = _
    rw [fA, fB, ren_sem, ren_sem]
    simp
    ring
  | un u a ih =>
    obtain ⟨A, hA, fA⟩ := ih (t := t) h.1
    have hd : u.Dom ((a.ren p).sem ρ) := by rw [ren_sem]; exact h.2
    have hc := coefEx_sem hd
    rw [ren_sem] at hc
    refine ⟨_, hc.comp_hasFDerivAt _ hA, ?_⟩
    show (a.tangent p t).sem ρ * (coefEx u (a.ren p)).sem ρ = _
    rw [fA]
    simp [mul_comm]
  | clampMin a c ih =>
    obtain ⟨A, hA, fA⟩ := ih (t := t) h.1
    refine ⟨_, clampMin_hasFDerivAt hA h.2, ?_⟩
    simp only [tangent, sem, ren_sem, fA, Cmp.holds]
    split <;> simp
  | clampMax a c ih =>
    obtain ⟨A, hA, fA⟩ := ih (t := t) h.1
    refine ⟨_, clampMax_hasFDerivAt hA h.2, ?_⟩
    simp only [tangent, sem, ren_sem, fA, Cmp.holds]
    split <;> simp
  | ite op a b f e iha ihb ihf ihe =>
    obtain ⟨A, hA, -⟩ := iha (t := t) h.1
    obtain ⟨B, hB, -⟩ := ihb (t := t) h.2.1
    have hev := op.eventually hA.continuousAt hB.continuousAt h.2.2.1
    by_cases hc : op.holds (a.sem fun i => ρ (p i)) (b.sem fun i => ρ (p i))
    · obtain ⟨T, hT, fT⟩ := ihf (t := t) (h.2.2.2.1 (.inr hc))
      refine ⟨T, hT.congr_of_eventuallyEq ?_, ?_⟩
      · filter_upwards [hev] with y hy
        simp [sem, hy, hc]
      · simp only [tangent, sem, ren_sem, hc, if_true, fT]
    · obtain ⟨T, hT, fT⟩ := ihe (t := t) (h.2.2.2.2 (.inr hc))
      refine ⟨T, hT.congr_of_eventuallyEq ?_, ?_⟩
      · filter_upwards [hev] with y hy
        simp [sem, hy, hc]
      · simp only [tangent, sem, ren_sem, hc, if_false, fT]
  | letE a b iha ihb =>
    obtain ⟨A, hA, fA⟩ := iha (t := t) h.1
    obtain ⟨B, hB, fB⟩ := ihb (ρ := Fin.cons (α := fun _ => ℝ) ((a.tangent p t).sem ρ)
        (Fin.cons (α := fun _ => ℝ) (a.sem fun i => ρ (p i)) ρ))
      (p := Fin.cases 1 fun i => (p i).succ.succ) (t := Fin.cases (.inl 0) fun i => (t i).shift.shift) (by
        rw [comp_cases_two]
        exact h.2)
    rw [comp_cases_two] at hB
    refine ⟨_, HasFDerivAt.comp _ hB (hasFDerivAt_cons hA), ?_⟩
    simp only [tangent, sem, ren_sem, Fin.cons_succ]
    rw [fB, dirOf_shift, fA]
    show B _ = B _
    congr 1
    funext i
    refine Fin.cases ?_ (fun i => ?_) i <;> simp
  | detach => exact h.elim

theorem UnOp.dom_open {u : UnOp} {x : ℝ} (h : u.Dom x) : ∀ᶠ y in 𝓝 x, u.Dom y := by
  cases u <;> simp only [UnOp.Dom] at h ⊢
  all_goals first
    | exact Filter.Eventually.of_forall fun _ => trivial
    | exact lt_mem_nhds h
    | exact continuous_abs.continuousAt.eventually_lt continuousAt_const h

theorem Reg.continuousAt {both : Bool} {n : ℕ} {e : Ex n} {ρ : Fin n → ℝ} (h : e.Reg both ρ) : ContinuousAt e.sem ρ := by
  have h' : e.Reg false ρ := by cases both; exacts [h, h.weaken]
  obtain ⟨D, hD, -⟩ := fwd_reg h'
  exact hD.continuousAt

/-- The points where a program may be differentiated form an open set. -/
theorem Reg.eventually {both : Bool} {n : ℕ} {e : Ex n} {ρ : Fin n → ℝ} (h : e.Reg both ρ) :
    ∀ᶠ ρ' in 𝓝 ρ, e.Reg both ρ' := by
  induction e with
  | var | const => exact Filter.Eventually.of_forall fun _ => trivial
  | add a b iha ihb | sub a b iha ihb | mul a b iha ihb => exact (iha h.1).and (ihb h.2)
  | div a b iha ihb => exact (iha h.1).and ((ihb h.2.1).and (h.2.1.continuousAt.eventually_ne h.2.2))
  | pow a b iha ihb =>
    exact (iha h.1).and ((ihb h.2.1).and (continuousAt_const.eventually_lt h.1.continuousAt h.2.2))
  | neg a ih => exact ih h
  | un u a ih => exact (ih h.1).and (h.1.continuousAt.eventually (UnOp.dom_open h.2))
  | clampMin a c ih | clampMax a c ih => exact (ih h.1).and (h.1.continuousAt.eventually_ne h.2)
  | ite op a b t e iha ihb iht ihe =>
    rename_i ρ
    have hev := op.eventually h.1.continuousAt h.2.1.continuousAt h.2.2.1
    have hne : ∀ᶠ ρ' in 𝓝 ρ, a.sem ρ' ≠ b.sem ρ' := by
      have := (h.1.continuousAt.sub h.2.1.continuousAt).eventually_ne (sub_ne_zero.2 h.2.2.1)
      filter_upwards [this] with ρ' h' using sub_ne_zero.1 h'
    have ht : ∀ᶠ ρ' in 𝓝 ρ, (both = true ∨ op.holds (a.sem ρ) (b.sem ρ) → t.Reg both ρ') := by
      by_cases hc : both = true ∨ op.holds (a.sem ρ) (b.sem ρ)
      · filter_upwards [iht (h.2.2.2.1 hc)] with ρ' h' _ using h'
      · exact Filter.Eventually.of_forall fun _ h' => absurd h' hc
    have he : ∀ᶠ ρ' in 𝓝 ρ, (both = true ∨ ¬op.holds (a.sem ρ) (b.sem ρ) → e.Reg both ρ') := by
      by_cases hc : both = true ∨ ¬op.holds (a.sem ρ) (b.sem ρ)
      · filter_upwards [ihe (h.2.2.2.2 hc)] with ρ' h' _ using h'
      · exact Filter.Eventually.of_forall fun _ h' => absurd h' hc
    filter_upwards [iha h.1, ihb h.2.1, hev, hne, ht, he] with ρ' h1 h2 h3 h4 h5 h6
    exact ⟨h1, h2, h4, by rw [h3]; exact h5, by rw [h3]; exact h6⟩
  | letE a b iha ihb =>
    rename_i ρ
    have hc : ContinuousAt (fun ρ => Fin.cons (α := fun _ => ℝ) (a.sem ρ) ρ) ρ := by
      have h' : a.Reg false ρ := by cases both; exacts [h.1, h.1.weaken]
      obtain ⟨D, hD, -⟩ := fwd_reg h'
      exact (hasFDerivAt_cons hD).continuousAt
    exact (iha h.1).and (hc.eventually (ihb h.2))
  | detach => exact h.elim

theorem dirOf_single {n : ℕ} (j : Fin n) (ρ : Fin n → ℝ) :
    dirOf (fun i => (.inr (if i = j then 1 else 0) : Dual n)) ρ = Pi.single j 1 := by
  funext i
  simp [dirOf, Pi.single_apply]

theorem col_reg {both : Bool} {n : ℕ} {e : Ex n} {ρ : Fin n → ℝ} (h : e.Reg both ρ) (j : Fin n) : (e.col j).Reg both ρ :=
  tangent_reg h

theorem col_sem {n : ℕ} {e : Ex n} {ρ : Fin n → ℝ} (h : e.Reg false ρ) (j : Fin n) :
    (e.col j).sem ρ = fderiv ℝ e.sem ρ (Pi.single j 1) := by
  obtain ⟨D, hD, hd⟩ := tangent_sem (p := id) (t := fun i => .inr (if i = j then 1 else 0)) h
  rw [col, hd, dirOf_single]
  exact congrArg (· (Pi.single j 1)) (HasFDerivAt.fderiv (show HasFDerivAt e.sem D ρ from hD)).symm

end Ex

end Caustics

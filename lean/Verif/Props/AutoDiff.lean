import Verif.Lemmas.AutoDiffPrograms

/-!
C105: automatic differentiation of the lens and source functions returns their derivatives.

`Exact e f ρ` (Lemmas/AutoDiffPrograms) says that at the arguments `ρ` the program `e` returns `f ρ`, that forward mode
(`backend.jacfwd`) returns the derivative of `f` in every direction and reverse mode (`backend.grad`) every partial
derivative; the derivative is the Fréchet derivative.
-/

open Real

namespace Caustics

open Ex

/-- Takes apart a `Reg`. -/
macro "regs" : tactic => `(tactic| repeat' first
  | exact True.intro
  | refine And.intro ?_ ?_
  | refine fun (_ : _ ∨ _) => ?_)

/-! ### Rewriting -/

theorem cons_vec {n : ℕ} (a : XR) (ρ : Fin n → XR) : Fin.cons (α := fun _ => XR) a ρ = Matrix.vecCons a ρ := rfl

theorem XR.nan_add (a : XR) : XR.add .nan a = .nan := by cases a <;> rfl
theorem XR.add_nan (a : XR) : XR.add a .nan = .nan := by cases a <;> rfl
theorem XR.nan_mul (a : XR) : XR.mul .nan a = .nan := by cases a <;> rfl
theorem XR.mul_nan (a : XR) : XR.mul a .nan = .nan := by cases a <;> rfl
theorem XR.nan_div (a : XR) : XR.div .nan a = .nan := by cases a <;> rfl
theorem XR.div_nan (a : XR) : XR.div a .nan = .nan := by cases a <;> rfl

theorem XR.fin_add (a b : ℝ) : XR.add (.fin a) (.fin b) = .fin (a + b) := rfl
theorem XR.fin_mul (a b : ℝ) : XR.mul (.fin a) (.fin b) = .fin (a * b) := rfl
theorem XR.fin_neg (a : ℝ) : XR.neg (.fin a) = .fin (-a) := rfl
theorem XR.nan_neg : XR.neg .nan = .nan := rfl
theorem XR.fin_lift (f : ℝ → XR) (a : ℝ) : XR.lift f (.fin a) = f a := rfl
theorem XR.nan_lift (f : ℝ → XR) : XR.lift f .nan = .nan := rfl
theorem XR.zero_mul_inf : XR.mul (.fin 0) .inf = .nan := if_pos rfl

theorem Ex.add_eq {n : ℕ} (a b : Ex n) : a + b = Ex.add a b := rfl
theorem Ex.sub_eq {n : ℕ} (a b : Ex n) : a - b = Ex.sub a b := rfl
theorem Ex.mul_eq {n : ℕ} (a b : Ex n) : a * b = Ex.mul a b := rfl
theorem Ex.div_eq {n : ℕ} (a b : Ex n) : a / b = Ex.div a b := rfl
theorem Ex.neg_eq {n : ℕ} (a : Ex n) : -a = Ex.neg a := rfl

/-! ### Any program -/

/-- Forward mode is exact when every operation that decides the value is used inside its domain and no comparison or
clamp is a tie.  What the branches not selected do does not matter. -/
theorem C105_forward {n : ℕ} (e : Ex n) (ρ : Fin n → ℝ) (h : e.Reg false ρ) :
    ∃ D : (Fin n → ℝ) →L[ℝ] ℝ, HasFDerivAt e.sem D ρ ∧ e.val (XR.ofReals ρ) = .fin (e.sem ρ) ∧
      ∀ d, e.fwd (XR.ofReals ρ) (XR.ofReals d) = .fin (D d) := by
  obtain ⟨D, hD, hd⟩ := fwd_reg h
  exact ⟨D, hD, val_reg h, hd⟩

/-- `where(x < 1, x, sqrt(1 - x) * y)` at `x = 0`: the derivative along `x` is one. -/
example : (ite .lt (v 0) (const 1) (v 0) (un .sqrt (const 1 - v 0) * v 1) : Ex 2).fwd (XR.ofReals ![0, 5])
    (XR.ofReals (Pi.single 0 1)) = .fin 1 := by
  simp [fwd, val, XR.ofReals, Cmp.test, Ex.v]

/-- Reverse mode is exact when, moreover, the branches that are not selected are inside the domain too. -/
theorem C105_reverse {n : ℕ} (e : Ex n) (ρ : Fin n → ℝ) (h : e.Reg true ρ) (g : ℝ) (k : Fin n) :
    DifferentiableAt ℝ e.sem ρ ∧
      e.rev (XR.ofReals ρ) (.fin g) k = .fin (g * fderiv ℝ e.sem ρ (Pi.single k 1)) := by
  obtain ⟨D, hD, -⟩ := fwd_reg h.weaken
  exact ⟨hD.differentiableAt, rev_reg h hD.differentiableAt.hasFDerivAt g k⟩

/-- `sqrt(x) * y` at `(4, 5)`. -/
example : ∃ a, (un .sqrt (v 0) * v 1 : Ex 2).rev (XR.ofReals ![4, 5]) (.fin 1) 1 = .fin a := by
  refine ⟨_, (C105_reverse (un .sqrt (v 0) * v 1) ![4, 5] ?_ 1 1).2⟩
  have h : (0 : ℝ) < 4 := by norm_num
  have e : Reg true (un .sqrt (v 0) * v 1 : Ex 2) ![4, 5] = ((True ∧ (0 : ℝ) < 4) ∧ True) := rfl
  rw [e]
  exact ⟨⟨trivial, h⟩, trivial⟩

/-- Where the operation has a value, smooth or not. -/
def UnOp.Closed : UnOp → ℝ → Prop
  | .sqrt, x => 0 ≤ x
  | .log, x => 0 < x
  | .atanh, x => |x| < 1
  | .acos, x => |x| ≤ 1
  | .acosh, x => 1 ≤ x
  | .powc c, x => 0 < x ∨ x = 0 ∧ 0 < c
  | _, _ => True

namespace Ex

/-- Every operation that is executed has a value. -/
def Legal : {n : ℕ} → Ex n → (Fin n → ℝ) → Prop
  | _, var _, _ => True
  | _, const _, _ => True
  | _, add a b, ρ => a.Legal ρ ∧ b.Legal ρ
  | _, sub a b, ρ => a.Legal ρ ∧ b.Legal ρ
  | _, mul a b, ρ => a.Legal ρ ∧ b.Legal ρ
  | _, div a b, ρ => a.Legal ρ ∧ b.Legal ρ ∧ b.sem ρ ≠ 0
  | _, neg a, ρ => a.Legal ρ
  | _, pow a b, ρ => a.Legal ρ ∧ b.Legal ρ ∧ (0 < a.sem ρ ∨ a.sem ρ = 0 ∧ 0 < b.sem ρ)
  | _, un u a, ρ => a.Legal ρ ∧ u.Closed (a.sem ρ)
  | _, clampMin a _, ρ => a.Legal ρ
  | _, clampMax a _, ρ => a.Legal ρ
  | _, ite op a b t e, ρ => a.Legal ρ ∧ b.Legal ρ ∧ (op.holds (a.sem ρ) (b.sem ρ) → t.Legal ρ) ∧
      (¬op.holds (a.sem ρ) (b.sem ρ) → e.Legal ρ)
  | _, letE a b, ρ => a.Legal ρ ∧ b.Legal (Fin.cons (α := fun _ => ℝ) (a.sem ρ) ρ)
  | _, detach a, ρ => a.Legal ρ

end Ex

theorem unOp_val_closed {u : UnOp} {x : ℝ} (h : u.Closed x) : u.val x = .fin (u.real x) := by
  cases u <;> simp only [UnOp.Closed] at h <;> simp only [UnOp.val, UnOp.real]
  · rw [if_pos h]
  · rw [if_pos h]
  · rw [if_pos h]
  · rw [if_pos h]
  · rw [if_pos h]
  · rcases h with h | ⟨rfl, h⟩
    · rw [if_pos h]
    · rw [if_neg (lt_irrefl _), if_pos rfl, if_pos h, Real.zero_rpow h.ne']

/-- The value is that of the formula also where there is no derivative: at ties, at the ends of the domains, at base zero
and behind `detach`. -/
theorem C105_value {n : ℕ} (e : Ex n) (ρ : Fin n → ℝ) (h : e.Legal ρ) : e.val (XR.ofReals ρ) = .fin (e.sem ρ) := by
  classical
  induction e with
  | var | const => rfl
  | add a b iha ihb | mul a b iha ihb => simp [val, sem, iha _ h.1, ihb _ h.2, XR.add, XR.mul]
  | sub a b iha ihb => simp [val, sem, iha _ h.1, ihb _ h.2, XR.add, XR.neg, sub_eq_add_neg]
  | div a b iha ihb => simp [val, sem, iha _ h.1, ihb _ h.2.1, XR.div, h.2.2]
  | pow a b iha ihb =>
    rcases h.2.2 with h0 | ⟨h0, h1⟩
    · simp [val, sem, iha _ h.1, ihb _ h.2.1, XR.pow, h0]
    · simp [val, sem, iha _ h.1, ihb _ h.2.1, XR.pow, h0, h1, Real.zero_rpow h1.ne']
  | neg a ih => simp [val, sem, ih _ h, XR.neg]
  | un u a ih => simp [val, sem, ih _ h.1, XR.lift, unOp_val_closed h.2]
  | clampMin a c ih | clampMax a c ih => simp [val, sem, ih _ h, XR.lift]
  | ite op a b t e iha ihb iht ihe =>
    simp only [val, sem, iha _ h.1, ihb _ h.2.1, Cmp.test_fin]
    by_cases hc : op.holds (a.sem ρ) (b.sem ρ)
    · simp [hc, iht _ (h.2.2.1 hc)]
    · simp [hc, ihe _ (h.2.2.2 hc)]
  | letE a b iha ihb => simp only [val, sem, iha _ h.1, XR.ofReals_cons, ihb _ h.2]
  | detach a ih => exact ih _ h

/-- `(x - x) ** y + clamp(acos(x), min=0)` at `(1, 1/2)`. -/
example : (pow (v 0 - v 0) (v 1) + clampMin (un .acos (v 0)) 0 : Ex 2).val (XR.ofReals ![1, 1 / 2]) = .fin 0 := by
  refine (C105_value (pow (v 0 - v 0) (v 1) + clampMin (un .acos (v 0)) 0) ![1, 1 / 2] ?_).trans ?_
  · refine ⟨⟨⟨trivial, trivial⟩, trivial, Or.inr ⟨sub_self _, ?_⟩⟩, trivial, ?_⟩
    · show (0 : ℝ) < 1 / 2
      norm_num
    · show |(1 : ℝ)| ≤ 1
      simp
  · congr 1
    show ((1 : ℝ) - 1) ^ (1 / 2 : ℝ) + max (arccos 1) 0 = 0
    rw [sub_self, Real.zero_rpow (by norm_num), arccos_one, max_self, add_zero]

/-- `x ** b` at `x = 0`: both modes return the derivative if there is one, `b ≥ 1`, and infinity for a root. -/
theorem C105_zero_base (b : ℝ) (hb : 0 < b) :
    (1 ≤ b → HasDerivAt (fun x : ℝ => x ^ b) (b * 0 ^ (b - 1)) 0 ∧
      (pow (v 0) (const b) : Ex 1).fwd (XR.ofReals ![0]) (XR.ofReals ![1]) = .fin (b * 0 ^ (b - 1)) ∧
      (pow (v 0) (const b) : Ex 1).rev (XR.ofReals ![0]) (.fin 1) 0 = .fin (b * 0 ^ (b - 1)) ∧
      (un (.powc b) (v 0) : Ex 1).fwd (XR.ofReals ![0]) (XR.ofReals ![1]) = .fin (b * 0 ^ (b - 1)) ∧
      (un (.powc b) (v 0) : Ex 1).rev (XR.ofReals ![0]) (.fin 1) 0 = .fin (b * 0 ^ (b - 1))) ∧
    (b < 1 → (pow (v 0) (const b) : Ex 1).fwd (XR.ofReals ![0]) (XR.ofReals ![1]) = .inf ∧
      (un (.powc b) (v 0) : Ex 1).fwd (XR.ofReals ![0]) (XR.ofReals ![1]) = .inf) := by
  constructor
  · intro h1
    refine ⟨by simpa using Real.hasDerivAt_rpow_const (x := 0) (Or.inr h1), ?_⟩
    rcases h1.lt_or_eq with h1 | rfl
    · have e : (0 : ℝ) ^ (b - 1) = 0 := Real.zero_rpow (by linarith)
      simp [fwd, rev, val, XR.ofReals, XR.powBase, XR.powExp, XR.mul, XR.add, XR.lift, UnOp.coef, hb, h1, e]
    · simp [fwd, rev, val, XR.ofReals, XR.powBase, XR.powExp, XR.mul, XR.add, XR.lift, UnOp.coef]
  · intro h1
    simp [fwd, val, XR.ofReals, XR.powBase, XR.powExp, XR.mul, XR.add, XR.lift, UnOp.coef, hb, h1.ne, hb.ne', not_lt.2 h1.le]

example := (C105_zero_base (3 / 2) (by norm_num)).1 (by norm_num)

example := (C105_zero_base (1 / 2) (by norm_num)).2 (by norm_num)

/-- The two modes agree. -/
theorem C105_modes_agree {n : ℕ} (e : Ex n) (ρ : Fin n → ℝ) (h : e.Reg true ρ) (k : Fin n) :
    e.rev (XR.ofReals ρ) (.fin 1) k = e.fwd (XR.ofReals ρ) (XR.ofReals (Pi.single k 1)) := by
  obtain ⟨D, hD, hd⟩ := fwd_reg h.weaken
  rw [rev_reg h hD, hd, one_mul]

/-- Without the hypothesis they need not agree: `where(x < 1, 0, sqrt(x - 2))` at `x = 0`. -/
example : (ite .lt (v 0) (const 1) (const 0) (un .sqrt (v 0 - const 2)) : Ex 1).fwd (XR.ofReals ![0]) (XR.ofReals ![1])
      = .fin 0 ∧
    (ite .lt (v 0) (const 1) (const 0) (un .sqrt (v 0 - const 2)) : Ex 1).rev (XR.ofReals ![0]) (.fin 1) 0 = .nan := by
  constructor
  · simp [fwd, val, XR.ofReals, Cmp.test]
  · have h : ¬(0 : ℝ) < 0 + -2 := by norm_num
    have h' : ¬(0 + -2 : ℝ) = 0 := by norm_num
    simp [rev, val, XR.ofReals, Cmp.test, UnOp.coef, XR.fin_lift, XR.fin_add, XR.fin_neg, Ex.sub_eq, XR.mul_nan,
      XR.nan_add, XR.add_nan, h, h', -zero_add]

/-! ### Lenses -/

/-- Radial distance of a position from the centre is not zero. -/
def OffCentre (x y x0 y0 : ℝ) : Prop := 0 < (x - x0) ^ 2 + (y - y0) ^ 2

/-- Singular isothermal sphere: deflection, potential and convergence, with respect to the position, the centre, the
softening and the Einstein radius. -/
theorem C105_sis (x y x0 y0 s Rein : ℝ) (h : OffCentre x y x0 y0) (hs : √((x - x0) ^ 2 + (y - y0) ^ 2) + s ≠ 0) :
    Exact sisX (fun v => (sisDeflection (v 2) (v 3) (v 5) (v 4) (v 0) (v 1)).1) ![x, y, x0, y0, s, Rein] ∧
    Exact sisY (fun v => (sisDeflection (v 2) (v 3) (v 5) (v 4) (v 0) (v 1)).2) ![x, y, x0, y0, s, Rein] ∧
    Exact sisPot (fun v => sisPotential (v 2) (v 3) (v 5) (v 4) (v 0) (v 1)) ![x, y, x0, y0, s, Rein] ∧
    Exact sisConv (fun v => sisConvergence (v 2) (v 3) (v 5) (v 4) (v 0) (v 1)) ![x, y, x0, y0, s, Rein] :=
  ⟨.of_reg (centred_reg h ⟨⟨trivial, trivial⟩, trivial, hs⟩) rfl,
    .of_reg (centred_reg h ⟨⟨trivial, trivial⟩, trivial, hs⟩) rfl,
    .of_reg (centred_reg h ⟨trivial, trivial⟩) rfl,
    .of_reg (centred_reg h ⟨⟨trivial, trivial⟩, trivial, hs⟩) rfl⟩

example : Exact sisX (fun v => (sisDeflection (v 2) (v 3) (v 5) (v 4) (v 0) (v 1)).1) ![3, 4, 0, 0, 0, 1] :=
  (C105_sis 3 4 0 0 0 1 (by norm_num [OffCentre]) (by norm_num)).1

/-- Point mass: deflection and potential. -/
theorem C105_point (x y x0 y0 s Rein : ℝ) (h : OffCentre x y x0 y0) (hs : 0 < √((x - x0) ^ 2 + (y - y0) ^ 2) + s) :
    Exact pointX (fun v => (pointDeflection (v 2) (v 3) (v 5) (v 4) (v 0) (v 1)).1) ![x, y, x0, y0, s, Rein] ∧
    Exact pointY (fun v => (pointDeflection (v 2) (v 3) (v 5) (v 4) (v 0) (v 1)).2) ![x, y, x0, y0, s, Rein] ∧
    Exact pointPot (fun v => pointPotential (v 2) (v 3) (v 5) (v 4) (v 0) (v 1)) ![x, y, x0, y0, s, Rein] :=
  ⟨.of_reg (centred_reg h ⟨⟨trivial, trivial, trivial⟩, ⟨trivial, trivial⟩, pow_ne_zero 2 hs.ne'⟩) rfl,
    .of_reg (centred_reg h ⟨⟨trivial, trivial, trivial⟩, ⟨trivial, trivial⟩, pow_ne_zero 2 hs.ne'⟩) rfl,
    .of_reg (centred_reg h ⟨⟨trivial, trivial⟩, trivial, hs⟩) rfl⟩

example : Exact pointPot (fun v => pointPotential (v 2) (v 3) (v 5) (v 4) (v 0) (v 1)) ![3, 4, 0, 0, 0, 1] :=
  (C105_point 3 4 0 0 0 1 (by norm_num [OffCentre]) (by positivity)).2.2

theorem nfwRsEx_reg {n : ℕ} [NeZero n] {both : Bool} {ρ : Fin n → ℝ} {i j k l : Fin n} (hm : 0 < ρ i) (hc : 0 < ρ j)
    (hr : 0 < ρ k) (hD : 0 < ρ l) : (nfwRsEx i j k l).Reg both ρ := by
  have h1 : 0 < 4 * π * ρ l * ρ k := by positivity
  have h2 : 0 < 3 * ρ i / (4 * π * ρ l * ρ k) := by positivity
  exact ⟨⟨⟨⟨trivial, trivial⟩, ⟨⟨⟨trivial, trivial⟩, trivial⟩, trivial⟩, h1.ne'⟩, h2⟩, trivial, hc.ne'⟩

theorem nfwRhosEx_reg {n : ℕ} [NeZero n] {both : Bool} {ρ : Fin n → ℝ} {i j k : Fin n} (hc : 0 < ρ i) :
    (nfwRhosEx i j k).Reg both ρ := by
  have h1 : 0 < 1 + ρ i := by linarith
  have h2 := nfw_mass_fn_pos hc
  exact ⟨⟨⟨⟨trivial, trivial, three_ne_zero⟩, trivial⟩, ⟨trivial, trivial⟩⟩,
    ⟨⟨⟨trivial, trivial⟩, h1⟩, ⟨trivial, ⟨trivial, trivial⟩, h1.ne'⟩⟩, h2.ne'⟩

theorem nfw_reg (x y x0 y0 s mass c rhoc d_l Delta w : ℝ) (h : OffCentre x y x0 y0) (hs : 0 ≤ s) (hm : 0 < mass)
    (hc : 0 < c) (hr : 0 < rhoc) (hd : 0 < d_l) (hD : 0 < Delta)
    (hR : NfwRadius (d_l * (√((x - x0) ^ 2 + (y - y0) ^ 2) + s) * arcsecToRad / nfwScaleRadius rhoc mass c Delta)) :
    nfwX.Reg true ![x, y, x0, y0, s, mass, c, rhoc, d_l, Delta, w] ∧
    nfwY.Reg true ![x, y, x0, y0, s, mass, c, rhoc, d_l, Delta, w] := by
  have hth : 0 < √((x - x0) ^ 2 + (y - y0) ^ 2) + s := add_pos_of_pos_of_nonneg (sqrt_pos.2 h) hs
  have ha := arcsecToRad_pos
  have hxi : 0 < d_l * (√((x - x0) ^ 2 + (y - y0) ^ 2) + s) * arcsecToRad := by positivity
  have hrs : 0 < nfwScaleRadius rhoc mass c Delta := by
    unfold nfwScaleRadius
    positivity
  exact ⟨centred_reg h ⟨nfwRsEx_reg hm hc hr hD, ⟨⟨trivial, trivial⟩, trivial⟩, ⟨trivial, trivial, hrs.ne'⟩,
      ⟨⟨⟨⟨⟨⟨⟨trivial, trivial⟩, trivial⟩, nfwRhosEx_reg hc⟩, trivial, trivial⟩, nfwHEx_reg hR⟩, trivial⟩, trivial,
        hxi.ne'⟩, ⟨trivial, trivial⟩, trivial, hth.ne'⟩,
    centred_reg h ⟨nfwRsEx_reg hm hc hr hD, ⟨⟨trivial, trivial⟩, trivial⟩, ⟨trivial, trivial, hrs.ne'⟩,
      ⟨⟨⟨⟨⟨⟨⟨trivial, trivial⟩, trivial⟩, nfwRhosEx_reg hc⟩, trivial, trivial⟩, nfwHEx_reg hR⟩, trivial⟩, trivial,
        hxi.ne'⟩, ⟨trivial, trivial⟩, trivial, hth.ne'⟩⟩

/-- NFW: deflection, potential and convergence, with respect to the position, the centre, the softening, the mass, the
concentration, the critical density, the distance, the overdensity and the last factor. -/
theorem C105_nfw (x y x0 y0 s mass c rhoc d_l Delta w : ℝ) (h : OffCentre x y x0 y0) (hs : 0 ≤ s) (hm : 0 < mass)
    (hc : 0 < c) (hr : 0 < rhoc) (hd : 0 < d_l) (hD : 0 < Delta)
    (hR : NfwRadius (d_l * (√((x - x0) ^ 2 + (y - y0) ^ 2) + s) * arcsecToRad / nfwScaleRadius rhoc mass c Delta)) :
    Exact nfwX (fun v => ((nfwAt v).physicalDeflection (v 0) (v 1)).1) ![x, y, x0, y0, s, mass, c, rhoc, d_l, Delta, w] ∧
    Exact nfwY (fun v => ((nfwAt v).physicalDeflection (v 0) (v 1)).2) ![x, y, x0, y0, s, mass, c, rhoc, d_l, Delta, w] ∧
    (w ≠ 0 → Exact nfwPot (fun v => (nfwAt v).potential (v 0) (v 1)) ![x, y, x0, y0, s, mass, c, rhoc, d_l, Delta, w]) ∧
    (w ≠ 0 → Exact nfwConv nfwConvReal ![x, y, x0, y0, s, mass, c, rhoc, d_l, Delta, w]) := by
  have hth : 0 < √((x - x0) ^ 2 + (y - y0) ^ 2) + s := add_pos_of_pos_of_nonneg (sqrt_pos.2 h) hs
  have ha := arcsecToRad_pos
  have hxi : 0 < d_l * (√((x - x0) ^ 2 + (y - y0) ^ 2) + s) * arcsecToRad := by positivity
  have hrs : 0 < nfwScaleRadius rhoc mass c Delta := by
    unfold nfwScaleRadius
    positivity
  have hsq : (d_l * (√((x - x0) ^ 2 + (y - y0) ^ 2) + s) * arcsecToRad / nfwScaleRadius rhoc mass c Delta) ^ 2 - 1
      ≠ 0 := by
    have h1 := hR.ne
    have h2 := hR.pos
    generalize d_l * (√((x - x0) ^ 2 + (y - y0) ^ 2) + s) * arcsecToRad / nfwScaleRadius rhoc mass c Delta = r at h1 h2
    rw [show r ^ 2 - 1 = (r - 1) * (r + 1) by ring]
    exact mul_ne_zero (sub_ne_zero.2 h1) (by linarith)
  obtain ⟨rx, ry⟩ := nfw_reg x y x0 y0 s mass c rhoc d_l Delta w h hs hm hc hr hd hD hR
  refine ⟨.of_reg rx nfwX_sem, .of_reg ry nfwY_sem, fun hw => ?_, fun hw => ?_⟩
  · exact .of_reg (centred_reg h ⟨nfwRsEx_reg hm hc hr hD, ⟨⟨trivial, trivial⟩, trivial⟩, ⟨trivial, trivial, hrs.ne'⟩,
      ⟨⟨⟨trivial, ⟨nfwRsEx_reg hm hc hr hD, nfwRhosEx_reg hc⟩, trivial, hw⟩, nfwGEx_reg hR⟩, trivial, trivial⟩,
      ⟨⟨trivial, trivial⟩, trivial⟩, mul_ne_zero (pow_ne_zero 2 hd.ne') (pow_ne_zero 2 ha.ne')⟩) nfwPot_sem
  · exact .of_reg (centred_reg h ⟨nfwRsEx_reg hm hc hr hD, ⟨⟨trivial, trivial⟩, trivial⟩, ⟨trivial, trivial, hrs.ne'⟩,
      ⟨⟨trivial, ⟨nfwRsEx_reg hm hc hr hD, nfwRhosEx_reg hc⟩, trivial, hw⟩, nfwFEx_reg hR⟩,
      ⟨⟨trivial, trivial⟩, trivial⟩, hsq⟩) nfwConv_sem

/-- A position at twice the scale radius. -/
example : ∃ d_l, Exact nfwX (fun v => ((nfwAt v).physicalDeflection (v 0) (v 1)).1) ![1, 0, 0, 0, 0, 1, 5, 1, d_l, 200, 1] := by
  have ha := arcsecToRad_pos
  have hr : 0 < nfwScaleRadius 1 1 5 200 := by
    unfold nfwScaleRadius
    positivity
  have e : 2 * nfwScaleRadius 1 1 5 200 / arcsecToRad * (√((1 - 0) ^ 2 + (0 - 0) ^ 2) + 0) * arcsecToRad /
      nfwScaleRadius 1 1 5 200 = 2 := by
    have : √((1 - 0) ^ 2 + (0 - 0) ^ 2 : ℝ) = 1 := by norm_num
    rw [this]
    field_simp
    ring
  refine ⟨2 * nfwScaleRadius 1 1 5 200 / arcsecToRad, (C105_nfw 1 0 0 0 0 1 5 1 _ 200 1 (by norm_num [OffCentre]) le_rfl
    one_pos (by norm_num) one_pos (by positivity) (by norm_num) ?_).1⟩
  rw [e]
  constructor <;> norm_num

theorem pj_reg (x y x0 y0 s mass Rc Rs d_l sigmacr : ℝ) (h : OffCentre x y x0 y0)
    (hs : √((x - x0) ^ 2 + (y - y0) ^ 2) + s ≠ 0) (hc : 0 < Rc) (hcs : Rc < Rs) (hd : 0 < d_l) (hsig : 0 < sigmacr) :
    pjX.Reg true ![x, y, x0, y0, s, mass, Rc, Rs, d_l, sigmacr] ∧
    pjY.Reg true ![x, y, x0, y0, s, mass, Rc, Rs, d_l, sigmacr] := by
  have hS : 0 < Rs := hc.trans hcs
  have ha := arcsecToRad_pos
  have p1 : ∀ t : ℝ, 0 < 1 + t ^ 2 := fun t => by positivity
  have p2 : ∀ t : ℝ, 0 < 1 + √(1 + t ^ 2) := fun t => by positivity
  have p3 : 2 * π * sigmacr * Rc * Rs * (d_l * arcsecToRad) ^ 2 ≠ 0 := by positivity
  have p4 : Rs - Rc ≠ 0 := by linarith
  constructor
  · refine centred_reg h ?_
    regs
    exacts [hc.ne', hc.ne', p1 _, (p2 _).ne', hS.ne', p1 _, mul_ne_zero hS.ne' (p2 _).ne', p3, p4, hs]
  · refine centred_reg h ?_
    regs
    exacts [hc.ne', hc.ne', p1 _, (p2 _).ne', hS.ne', p1 _, mul_ne_zero hS.ne' (p2 _).ne', p3, p4, hs]

/-- Pseudo-Jaffe deflection. -/
theorem C105_pseudo_jaffe (x y x0 y0 s mass Rc Rs d_l sigmacr : ℝ) (h : OffCentre x y x0 y0)
    (hs : √((x - x0) ^ 2 + (y - y0) ^ 2) + s ≠ 0) (hc : 0 < Rc) (hcs : Rc < Rs) (hd : 0 < d_l) (hsig : 0 < sigmacr) :
    Exact pjX (fun v => ((pjAt v).deflection (v 0) (v 1)).1) ![x, y, x0, y0, s, mass, Rc, Rs, d_l, sigmacr] ∧
    Exact pjY (fun v => ((pjAt v).deflection (v 0) (v 1)).2) ![x, y, x0, y0, s, mass, Rc, Rs, d_l, sigmacr] :=
  have r := pj_reg x y x0 y0 s mass Rc Rs d_l sigmacr h hs hc hcs hd hsig
  ⟨.of_reg r.1 pjX_sem, .of_reg r.2 pjY_sem⟩

example : Exact pjX (fun v => ((pjAt v).deflection (v 0) (v 1)).1) ![3, 4, 0, 0, 0, 1, 1, 2, 1, 1] :=
  (C105_pseudo_jaffe 3 4 0 0 0 1 1 2 1 1 (by norm_num [OffCentre]) (by norm_num) one_pos one_lt_two one_pos one_pos).1

/-- What the two inverse functions of the SIE get as argument. -/
theorem sie_args {q s x y : ℝ} (hq0 : 0 < q) (hq1 : q < 1) (hs : 0 ≤ s) (h : 0 < x ^ 2 + y ^ 2 ∨ 0 < s) :
    0 < 1 - q ^ 2 ∧ 0 < q ^ 2 * (x ^ 2 + s ^ 2) + y ^ 2 ∧ 0 < √(q ^ 2 * (x ^ 2 + s ^ 2) + y ^ 2) + s ∧
      0 < √(q ^ 2 * (x ^ 2 + s ^ 2) + y ^ 2) + q ^ 2 * s ∧
      |√(1 - q ^ 2) * y / (√(q ^ 2 * (x ^ 2 + s ^ 2) + y ^ 2) + q ^ 2 * s)| < 1 := by
  have h1 : 0 < 1 - q ^ 2 := by nlinarith
  have hq2 : 0 < q ^ 2 := by positivity
  have h2 : 0 < q ^ 2 * (x ^ 2 + s ^ 2) + y ^ 2 := by
    rcases h with h | h
    · rcases eq_or_ne x 0 with rfl | hx
      · have : 0 < y ^ 2 := by simpa using h
        positivity
      · positivity
    · positivity
  have h3 : 0 < √(q ^ 2 * (x ^ 2 + s ^ 2) + y ^ 2) := sqrt_pos.2 h2
  have h4 : 0 < √(q ^ 2 * (x ^ 2 + s ^ 2) + y ^ 2) + q ^ 2 * s := by positivity
  refine ⟨h1, h2, by positivity, h4, ?_⟩
  rw [abs_div, abs_of_pos h4, div_lt_one h4, abs_mul, abs_of_nonneg (sqrt_nonneg _)]
  have h5 : |y| ≤ √(q ^ 2 * (x ^ 2 + s ^ 2) + y ^ 2) := by
    rw [← sqrt_sq_eq_abs]
    exact sqrt_le_sqrt (by nlinarith [mul_nonneg hq2.le (add_nonneg (sq_nonneg x) (sq_nonneg s))])
  have h6 : √(1 - q ^ 2) < 1 := by rw [sqrt_lt' one_pos]; linarith
  calc √(1 - q ^ 2) * |y| ≤ √(1 - q ^ 2) * √(q ^ 2 * (x ^ 2 + s ^ 2) + y ^ 2) :=
        mul_le_mul_of_nonneg_left h5 (sqrt_nonneg _)
    _ < 1 * √(q ^ 2 * (x ^ 2 + s ^ 2) + y ^ 2) := mul_lt_mul_of_pos_right h6 h3
    _ ≤ _ := by rw [one_mul]; nlinarith [mul_nonneg hq2.le hs]

/-- Rotating the position does not change its distance from the centre. -/
theorem rotated_sq (a b φ : ℝ) : (a * cos φ + b * sin φ) ^ 2 + (b * cos φ - a * sin φ) ^ 2 = a ^ 2 + b ^ 2 := by
  linear_combination (a ^ 2 + b ^ 2) * sin_sq_add_cos_sq φ

theorem sie_reg (x y x0 y0 s q phi Rein : ℝ) (hq0 : 0 < q) (hq1 : q < 1) (hs : 0 ≤ s)
    (h : OffCentre x y x0 y0 ∨ 0 < s) :
    sieX.Reg true ![x, y, x0, y0, s, q, phi, Rein] ∧ sieY.Reg true ![x, y, x0, y0, s, q, phi, Rein] := by
  classical
  have hq : (if q = 1 then q - 1e-6 else q) = q := if_neg hq1.ne
  obtain ⟨p1, p2, p3, p4, p5⟩ := sie_args (q := if q = 1 then q - 1e-6 else q) (s := s)
    (x := (x - x0) * cos phi + (y - y0) * sin phi)
    (y := (y - y0) * cos phi - (x - x0) * sin phi) (by rw [hq]; exact hq0) (by rw [hq]; exact hq1) hs (by rw [rotated_sq]; exact h)
  have hq0' : 0 < if q = 1 then q - 1e-6 else q := by rw [hq]; exact hq0
  constructor
  · unfold sieX sieBody
    regs
    exacts [hq1.ne, p1, hq0', (sqrt_pos.2 p1).ne', p2, p3.ne', p4.ne', p5]
  · unfold sieY sieBody
    regs
    exacts [hq1.ne, p1, hq0', (sqrt_pos.2 p1).ne', p2, p3.ne', p4.ne', p5]

/-- Singular isothermal ellipsoid: deflection with respect to the position and all parameters, anywhere except at the
centre of an unsoftened lens.  With softening the centre itself is included. -/
theorem C105_sie (x y x0 y0 s q phi Rein : ℝ) (hq0 : 0 < q) (hq1 : q < 1) (hs : 0 ≤ s)
    (h : OffCentre x y x0 y0 ∨ 0 < s) :
    Exact sieX (fun v => (sieDeflection (v 2) (v 3) (v 5) (v 6) (v 7) (v 4) (v 0) (v 1)).1)
      ![x, y, x0, y0, s, q, phi, Rein] ∧
    Exact sieY (fun v => (sieDeflection (v 2) (v 3) (v 5) (v 6) (v 7) (v 4) (v 0) (v 1)).2)
      ![x, y, x0, y0, s, q, phi, Rein] :=
  have r := sie_reg x y x0 y0 s q phi Rein hq0 hq1 hs h
  ⟨.of_reg r.1 sieX_sem, .of_reg r.2 sieY_sem⟩

/-- At the centre of a softened lens. -/
example : Exact sieX (fun v => (sieDeflection (v 2) (v 3) (v 5) (v 6) (v 7) (v 4) (v 0) (v 1)).1)
    ![0, 0, 0, 0, 1 / 10, 1 / 2, 1, 1] :=
  (C105_sie 0 0 0 0 (1 / 10) (1 / 2) 1 1 (by norm_num) (by norm_num) (by norm_num) (.inr (by norm_num))).1

/-- Truncated NFW convergence, away from the scale radius and from the radii at which `_F_tnfw` changes formula. -/
theorem C105_tnfw_partial (x y x0 y0 s Rs tau sigmacr M0 d_l : ℝ) (h : OffCentre x y x0 y0) (hs : 0 ≤ s) (hR : 0 < Rs)
    (ht : 0 < tau) (hsig : 0 < sigmacr) (hd : 0 < d_l) {g : ℝ} (hg : g = (√((x - x0) ^ 2 + (y - y0) ^ 2) + s) / Rs)
    (h0 : g ≠ 1) (h1 : g ≠ 1 + 1e-3) (h2 : g ≠ 1 - 1e-3) (h3 : g ≠ 1 + 1e-2) (h4 : g ≠ 1 - 1e-2) :
    Exact tnfwConv (fun v => (tnfwAt v).convergence (v 0) (v 1)) ![x, y, x0, y0, s, Rs, tau, sigmacr, M0, d_l] := by
  have hr : 0 < √((x - x0) ^ 2 + (y - y0) ^ 2) + s := add_pos_of_pos_of_nonneg (sqrt_pos.2 h) hs
  subst hg
  have hg0 : 0 < (√((x - x0) ^ 2 + (y - y0) ^ 2) + s) / Rs := div_pos hr hR
  have ha := arcsecToRad_pos
  refine .of_reg (centred_reg h ?_) tnfwConv_sem
  have p1 : 0 < tau ^ 2 + ((√((x - x0) ^ 2 + (y - y0) ^ 2) + s) / Rs) ^ 2 := by positivity
  have p2 : 0 < tau + √(tau ^ 2 + ((√((x - x0) ^ 2 + (y - y0) ^ 2) + s) / Rs) ^ 2) := by positivity
  have p3 : 0 < (√((x - x0) ^ 2 + (y - y0) ^ 2) + s) / Rs /
      (tau + √(tau ^ 2 + ((√((x - x0) ^ 2 + (y - y0) ^ 2) + s) / Rs) ^ 2)) := by positivity
  have p4 : 2 * π * (Rs * d_l * arcsecToRad) ^ 2 ≠ 0 := by positivity
  have p5 : (tau ^ 2 + 1) ^ 2 ≠ 0 := by positivity
  have p6 : ((√((x - x0) ^ 2 + (y - y0) ^ 2) + s) / Rs) ^ 2 - 1 ≠ 0 := by
    generalize (√((x - x0) ^ 2 + (y - y0) ^ 2) + s) / Rs = r at h0 hg0
    rw [show r ^ 2 - 1 = (r - 1) * (r + 1) by ring]
    exact mul_ne_zero (sub_ne_zero.2 h0) (by linarith)
  have p7 : tau * √(tau ^ 2 + ((√((x - x0) ^ 2 + (y - y0) ^ 2) + s) / Rs) ^ 2) ≠ 0 :=
    mul_ne_zero ht.ne' (sqrt_pos.2 p1).ne'
  refine ⟨⟨trivial, trivial, hR.ne'⟩, tnfwFEx_reg hg0 h1 h2 h3 h4, ?_⟩
  unfold tnfwTail tnfwA2
  regs
  exacts [p1, p2.ne', p3, p4, p5, h0, three_ne_zero, p6, p1, (sqrt_pos.2 p1).ne', p1, p7, hsig.ne']

example : Exact tnfwConv (fun v => (tnfwAt v).convergence (v 0) (v 1)) ![2, 0, 0, 0, 0, 1, 3, 1, 1, 1] := by
  have e : (√((2 - 0) ^ 2 + (0 - 0) ^ 2) + 0) / 1 = (2 : ℝ) := by
    rw [show ((2 - 0) ^ 2 + (0 - 0) ^ 2 : ℝ) = 2 ^ 2 by norm_num, sqrt_sq two_pos.le]
    norm_num
  exact C105_tnfw_partial 2 0 0 0 0 1 3 1 1 1 (by norm_num [OffCentre]) le_rfl one_pos (by norm_num) one_pos one_pos e.symm
    (by norm_num) (by norm_num) (by norm_num) (by norm_num) (by norm_num)

/-! ### Sources -/

/-- Sersic brightness with respect to the position and all parameters, off centre. -/
theorem C105_sersic (x y x0 y0 s q phi n Re Ie k : ℝ) (h : OffCentre x y x0 y0) (hs : 0 ≤ s) (hq : 0 < q) (hn : 0 < n)
    (hR : 0 < Re) :
    Exact sersicEx
      (fun v => brightnessSersic (v 2) (v 3) (v 5) (v 6) (v 7) (v 8) (v 9) (v 0) (v 1) (v 10) (v 4))
      ![x, y, x0, y0, s, q, phi, n, Re, Ie, k] := by
  have h1 := rotated_sq (x - x0) (y - y0) phi
  generalize hX : (x - x0) * cos phi + (y - y0) * sin phi = X at h1
  generalize hY : (y - y0) * cos phi - (x - x0) * sin phi = Y at h1
  have p1 : 0 < X ^ 2 + (Y / q) ^ 2 := by
    have h2 : 0 < X ^ 2 + Y ^ 2 := by rw [h1]; exact h
    rcases eq_or_ne X 0 with rfl | hx
    · have : 0 < Y ^ 2 := by simpa using h2
      have hy : Y ≠ 0 := by rintro rfl; simp at this
      positivity
    · positivity
  have p2 : 0 < (√(X ^ 2 + (Y / q) ^ 2) + s) / Re := by positivity
  rw [← hX, ← hY] at p1 p2
  refine .of_reg ?_ sersicEx_sem
  unfold sersicEx
  regs
  exacts [hq.ne', p1, hR.ne', hn.ne', p2]

example : Exact sersicEx
    (fun v => brightnessSersic (v 2) (v 3) (v 5) (v 6) (v 7) (v 8) (v 9) (v 0) (v 1) (v 10) (v 4))
    ![1, 1, 0, 0, 0, 1 / 2, 1, 4, 1, 1, 7] :=
  C105_sersic 1 1 0 0 0 (1 / 2) 1 4 1 1 7 (by norm_num [OffCentre]) le_rfl (by norm_num) (by norm_num) (by norm_num)

/-- The squared distance of the position from the star. -/
def starDist2 (v : Fin 7 → ℝ) : ℝ := (v 0 - v 2) ^ 2 + (v 1 - v 3) ^ 2

theorem starReal_in {v : Fin 7 → ℝ} (h : starDist2 v < 1) : starEx.sem v = starReal v := by
  classical
  have h0 : 0 ≤ starDist2 v := by unfold starDist2; positivity
  have h1 : ¬(1 - √(starDist2 v) ^ 2 < 0) := by rw [sq_sqrt h0]; linarith
  have h2 : starEx.sem v = if starDist2 v ^ (1 / 2 : ℝ) ≤ v 4 then
      v 5 * (1 - v 6 * (1 - (1 - (starDist2 v ^ (1 / 2 : ℝ)) ^ 2) ^ (1 / 2 : ℝ))) else 0 := by
    rw [ite_inst _ _ (Classical.propDecidable _)]
    rfl
  rw [h2, ← sqrt_eq_rpow, ← sqrt_eq_rpow]
  show _ = Option.getD (if √(starDist2 v) ≤ v 4 then
    Option.map _ (if 1 - √(starDist2 v) ^ 2 < 0 then none else some _) else some 0) 0
  rw [if_neg h1]
  split_ifs <;> rfl

theorem starReal_out {v : Fin 7 → ℝ} (h : v 4 < √(starDist2 v)) : starReal v = 0 := by
  show Option.getD (if √(starDist2 v) ≤ v 4 then _ else some 0) 0 = 0
  rw [if_neg (not_le.2 h)]
  rfl

theorem continuous_starDist2 : Continuous starDist2 := by
  unfold starDist2
  fun_prop

/-- The star within one arcsecond of its centre, but not at the centre and not on the edge of the disc. -/
theorem C105_star_partial (x y x0 y0 theta Ie gamma : ℝ) (h : OffCentre x y x0 y0)
    (h1 : (x - x0) ^ 2 + (y - y0) ^ 2 < 1) (hth : √((x - x0) ^ 2 + (y - y0) ^ 2) ≠ theta) :
    Exact starEx starReal ![x, y, x0, y0, theta, Ie, gamma] := by
  refine .of_reg_near ?_ ?_
  · have p1 : 0 < 1 - (((x - x0) ^ 2 + (y - y0) ^ 2) ^ (1 / 2 : ℝ)) ^ 2 := by
      rw [← sqrt_eq_rpow, sq_sqrt h.le]
      linarith
    have p2 : ((x - x0) ^ 2 + (y - y0) ^ 2) ^ (1 / 2 : ℝ) ≠ theta := by
      rw [← sqrt_eq_rpow]
      exact hth
    unfold starEx
    regs
    exacts [h, p1, p2]
  · filter_upwards [continuous_starDist2.continuousAt.eventually_lt continuousAt_const
      (show starDist2 ![x, y, x0, y0, theta, Ie, gamma] < 1 from h1)] with v hv using (starReal_in hv).symm

example : Exact starEx starReal ![3 / 10, 4 / 10, 0, 0, 1, 1, 1 / 2] := by
  have e : √((3 / 10 - 0) ^ 2 + (4 / 10 - 0) ^ 2) = (1 / 2 : ℝ) := by
    rw [show ((3 / 10 - 0) ^ 2 + (4 / 10 - 0) ^ 2 : ℝ) = (1 / 2) ^ 2 by norm_num, sqrt_sq (by norm_num)]
  exact C105_star_partial _ _ 0 0 1 1 (1 / 2) (by norm_num [OffCentre]) (by norm_num) (by rw [e]; norm_num)

/-- A pixel of the star outside its disc and more than one arcsecond from its centre. -/
structure StarOutside (v : Fin 7 → ℝ) : Prop where
  far : 1 < starDist2 v
  out : v 4 < √(starDist2 v)

theorem star_rev_nan {v : Fin 7 → ℝ} (h : StarOutside v) (g : ℝ) {k : Fin 7} (hk : k ≠ 4) :
    starEx.rev (XR.ofReals v) (.fin g) k = .nan := by
  obtain ⟨h1, h2⟩ := h
  unfold starDist2 at h1 h2
  have h0 : 0 < (v 0 - v 2) ^ 2 + (v 1 - v 3) ^ 2 := one_pos.trans h1
  have e1 : ((v 0 - v 2) ^ 2 + (v 1 - v 3) ^ 2) ^ (2⁻¹ : ℝ) = √((v 0 - v 2) ^ 2 + (v 1 - v 3) ^ 2) := by
    rw [sqrt_eq_rpow, one_div]
  have e2 : √((v 0 - v 2) ^ 2 + (v 1 - v 3) ^ 2) ^ 2 = (v 0 - v 2) ^ 2 + (v 1 - v 3) ^ 2 := sq_sqrt h0.le
  have h3 : ¬(v 0 - v 2) ^ 2 + (v 1 - v 3) ^ 2 < 1 := not_lt.2 h1.le
  have h4 : 1 - ((v 0 - v 2) ^ 2 + (v 1 - v 3) ^ 2) ≠ 0 := by linarith
  have h5 : ¬√((v 0 - v 2) ^ 2 + (v 1 - v 3) ^ 2) ≤ v 4 := not_le.2 h2
  fin_cases k <;> first | exact absurd rfl hk | skip
  all_goals simp [starEx, rev, val, Ex.add_eq, Ex.sub_eq, Ex.mul_eq, cons_vec, XR.ofReals, XR.fin_add, XR.fin_neg,
    XR.fin_lift, XR.nan_lift, UnOp.val, UnOp.coef, XR.fin_mul, Cmp.test, XR.nan_add, XR.add_nan, XR.nan_mul, XR.mul_nan,
    XR.nan_neg, ← sub_eq_add_neg, h0, e1, e2, h3, h4, h5, -neg_add_rev]

theorem star_val_fwd {v : Fin 7 → ℝ} (h : StarOutside v) (d : Fin 7 → ℝ) :
    starEx.val (XR.ofReals v) = .fin 0 ∧ starEx.fwd (XR.ofReals v) (XR.ofReals d) = .fin 0 := by
  obtain ⟨h1, h2⟩ := h
  unfold starDist2 at h1 h2
  have h0 : 0 < (v 0 - v 2) ^ 2 + (v 1 - v 3) ^ 2 := one_pos.trans h1
  have e1 : ((v 0 - v 2) ^ 2 + (v 1 - v 3) ^ 2) ^ (2⁻¹ : ℝ) = √((v 0 - v 2) ^ 2 + (v 1 - v 3) ^ 2) := by
    rw [sqrt_eq_rpow, one_div]
  have h5 : ¬√((v 0 - v 2) ^ 2 + (v 1 - v 3) ^ 2) ≤ v 4 := not_le.2 h2
  constructor <;> simp [starEx, fwd, val, Ex.add_eq, Ex.sub_eq, Ex.mul_eq, cons_vec, XR.ofReals, XR.fin_add, XR.fin_neg,
    XR.fin_lift, UnOp.val, Cmp.test, ← sub_eq_add_neg, h0, e1, h5, -neg_add_rev]

/-- The full claim for a source or lens function: wherever the function is differentiable, so do both modes find. -/
def C105_statement {n : ℕ} (e : Ex n) (f : (Fin n → ℝ) → ℝ) : Prop := ∀ ρ, DifferentiableAt ℝ f ρ → Exact e f ρ

/-- For a pixel more than an arcsecond away from the star and outside its disc the brightness is zero and stays zero,
forward mode says so, and reverse mode returns NaN for the derivative with respect to everything except `theta_s`. -/
theorem C105_star_fails (v : Fin 7 → ℝ) (h : StarOutside v) :
    HasFDerivAt starReal (0 : (Fin 7 → ℝ) →L[ℝ] ℝ) v ∧ starEx.val (XR.ofReals v) = .fin 0 ∧
      (∀ d, starEx.fwd (XR.ofReals v) (XR.ofReals d) = .fin 0) ∧
      ∀ k, k ≠ 4 → starEx.rev (XR.ofReals v) (.fin 1) k = .nan := by
  refine ⟨?_, (star_val_fwd h 0).1, fun d => (star_val_fwd h d).2, fun k hk => star_rev_nan h 1 hk⟩
  refine (hasFDerivAt_const (0 : ℝ) v).congr_of_eventuallyEq ?_
  have hc : Continuous fun v : Fin 7 → ℝ => √(starDist2 v) := continuous_starDist2.sqrt
  filter_upwards [(continuous_apply (4 : Fin 7)).continuousAt.eventually_lt hc.continuousAt h.out] with u hu
    using starReal_out hu

theorem starOutside_two : StarOutside ![2, 0, 0, 0, 1 / 2, 1, 0] := by
  have e : starDist2 ![2, 0, 0, 0, 1 / 2, 1, 0] = 2 ^ 2 := by simp [starDist2]
  constructor
  · rw [e]; norm_num
  · rw [e, sqrt_sq (by norm_num)]; simp; norm_num

theorem C105_star_statement_fails : ¬C105_statement starEx starReal := by
  intro hst
  have h := starOutside_two
  obtain ⟨D, -, -, -, hk⟩ := hst _ (C105_star_fails _ h).1.differentiableAt
  have h1 := hk 5
  rw [(C105_star_fails _ h).2.2.2 5 (by decide)] at h1
  cases h1

/-- One such pixel makes the gradient of the whole image's squared residuals NaN with respect to the star's position,
intensity and limb darkening, whatever the data and the other pixels. -/
theorem C105_star_loss_fails (l : List (ℝ × ℝ × ℝ)) (x0 y0 theta Ie gamma : ℝ) (k : Fin 5) (hk : k ≠ 2)
    (h : ∃ p ∈ l, StarOutside ![p.1, p.2.1, x0, y0, theta, Ie, gamma]) :
    (starLoss l).rev (XR.ofReals ![x0, y0, theta, Ie, gamma]) (.fin 1) k = .nan := by
  induction l with
  | nil => simp at h
  | cons p l ih =>
    obtain ⟨x, y, d⟩ := p
    obtain ⟨q, hq, ho⟩ := h
    rcases List.mem_cons.1 hq with rfl | hq
    · have e : Fin.cons (α := fun _ => XR) (.fin x) (Fin.cons (α := fun _ => XR) (.fin y)
          (XR.ofReals ![x0, y0, theta, Ie, gamma])) = XR.ofReals ![x, y, x0, y0, theta, Ie, gamma] := by
        rw [XR.ofReals_cons, XR.ofReals_cons]
        rfl
      have hv : (starPixel x y).val (XR.ofReals ![x0, y0, theta, Ie, gamma]) = .fin 0 := by
        show starEx.val (Fin.cons (α := fun _ => XR) (.fin x) (Fin.cons (α := fun _ => XR) (.fin y)
          (XR.ofReals ![x0, y0, theta, Ie, gamma]))) = _
        rw [e]
        exact (star_val_fwd ho 0).1
      have hr : ∀ g, (starPixel x y).rev (XR.ofReals ![x0, y0, theta, Ie, gamma]) (.fin g) k = .nan := by
        intro g
        show XR.add (XR.add (starEx.rev (Fin.cons (α := fun _ => XR) (.fin x) (Fin.cons (α := fun _ => XR) (.fin y)
          (XR.ofReals ![x0, y0, theta, Ie, gamma]))) (.fin g) k.succ.succ) _) _ = _
        rw [e, star_rev_nan ho g (fun h => hk (by simpa [Fin.ext_iff] using h)), XR.nan_add, XR.nan_add]
      show XR.add (XR.add ((starPixel x y).rev _ (XR.mul (.fin 1) (XR.lift UnOp.sq.coef (XR.add ((starPixel x y).val _)
        (.fin (-d))))) k) _) _ = _
      rw [hv]
      show XR.add (XR.add ((starPixel x y).rev _ (.fin (1 * (2 * (0 + -d)))) k) _) _ = _
      rw [hr, XR.nan_add, XR.nan_add]
    · show XR.add _ ((starLoss l).rev _ (.fin 1) k) = _
      rw [ih ⟨q, hq, ho⟩, XR.add_nan]

/-- Two pixels, one at a quarter of an arcsecond and one at two arcseconds from a star of half an arcsecond. -/
example : (starLoss [(1 / 4, 0, 1), (2, 0, 0)]).rev (XR.ofReals ![0, 0, 1 / 2, 1, 0]) (.fin 1) 3 = .nan :=
  C105_star_loss_fails _ 0 0 (1 / 2) 1 0 3 (by decide) ⟨(2, 0, 0), by simp, starOutside_two⟩

/-! ### At the centre of a softened lens -/

theorem hasGrad_mul_cont {c : ℝ × ℝ → ℝ} {x0 y0 : ℝ} (hc : ContinuousAt c (x0, y0)) (a b : ℝ) :
    HasGrad (fun x y => (a * (x - x0) + b * (y - y0)) * c (x, y)) (a * c (x0, y0)) (b * c (x0, y0)) x0 y0 := by
  show HasFDerivAt _ _ _
  rw [hasFDerivAt_iff_isLittleO]
  have hu : (fun p : ℝ × ℝ => a * (p.1 - x0) + b * (p.2 - y0)) =O[nhds (x0, y0)] fun p => p - (x0, y0) := by
    refine Asymptotics.IsBigO.of_bound (|a| + |b|) (Filter.Eventually.of_forall fun p => ?_)
    have h1 : |p.1 - x0| ≤ ‖p - (x0, y0)‖ := norm_fst_le (p - (x0, y0))
    have h2 : |p.2 - y0| ≤ ‖p - (x0, y0)‖ := norm_snd_le (p - (x0, y0))
    calc ‖a * (p.1 - x0) + b * (p.2 - y0)‖ ≤ |a * (p.1 - x0)| + |b * (p.2 - y0)| := abs_add_le _ _
      _ = |a| * |p.1 - x0| + |b| * |p.2 - y0| := by rw [abs_mul, abs_mul]
      _ ≤ |a| * ‖p - (x0, y0)‖ + |b| * ‖p - (x0, y0)‖ := by gcongr
      _ = _ := by ring
  have hv : (fun p : ℝ × ℝ => c p - c (x0, y0)) =o[nhds (x0, y0)] fun _ => (1 : ℝ) := by
    rw [Asymptotics.isLittleO_one_iff]
    simpa using (hc.tendsto.sub_const (c (x0, y0)))
  have h := hu.norm_right.mul_isLittleO hv
  simp only [mul_one] at h
  have h' := h.of_norm_right
  refine h'.congr_left fun p => ?_
  simp
  ring

theorem continuousAt_softened {x0 y0 s : ℝ} (φ : ℝ → ℝ) (hφ : ContinuousAt φ s) :
    ContinuousAt (fun p : ℝ × ℝ => φ (√((p.1 - x0) ^ 2 + (p.2 - y0) ^ 2) + s)) (x0, y0) := by
  refine ContinuousAt.comp (f := fun p : ℝ × ℝ => √((p.1 - x0) ^ 2 + (p.2 - y0) ^ 2) + s) (by simpa using hφ) ?_
  exact Continuous.continuousAt (by fun_prop)

/-- The Jacobian of the deflection at the centre of a softened isothermal sphere exists: the lens acts there as a
uniform sheet.  Automatic differentiation in forward mode, which `jacobian_lens_equation` uses, returns NaN. -/
theorem C105_centre_sis_fails (x0 y0 s Rein : ℝ) (hs : 0 < s) :
    HasJac (sisDeflection x0 y0 Rein s) (Rein / s) 0 0 (Rein / s) x0 y0 ∧
      ∀ d, sisX.fwd (XR.ofReals ![x0, y0, x0, y0, s, Rein]) (XR.ofReals d) = .nan ∧
        sisY.fwd (XR.ofReals ![x0, y0, x0, y0, s, Rein]) (XR.ofReals d) = .nan := by
  have hc : ContinuousAt (fun p : ℝ × ℝ => Rein / (√((p.1 - x0) ^ 2 + (p.2 - y0) ^ 2) + s)) (x0, y0) :=
    continuousAt_softened (fun t => Rein / t) (continuousAt_const.div continuousAt_id hs.ne')
  refine ⟨⟨?_, ?_⟩, fun d => ⟨?_, ?_⟩⟩
  · convert hasGrad_mul_cont hc 1 0 using 1
    · funext x y
      simp only [sisDeflection, translateRotate]
      ring
    · simp
    · simp
  · convert hasGrad_mul_cont hc 0 1 using 1
    · funext x y
      simp only [sisDeflection, translateRotate]
      ring
    · simp
    · simp
  · simp [sisX, centred, fwd, val, Ex.add_eq, Ex.sub_eq, Ex.mul_eq, Ex.div_eq, cons_vec, XR.ofReals, XR.fin_add,
      XR.fin_neg, XR.fin_lift, UnOp.val, UnOp.coef, XR.fin_mul, XR.nan_add, XR.add_nan, XR.nan_mul,
      XR.nan_neg, XR.nan_div, XR.zero_mul_inf]
  · simp [sisY, centred, fwd, val, Ex.add_eq, Ex.sub_eq, Ex.mul_eq, Ex.div_eq, cons_vec, XR.ofReals, XR.fin_add,
      XR.fin_neg, XR.fin_lift, UnOp.val, UnOp.coef, XR.fin_mul, XR.nan_add, XR.add_nan, XR.nan_mul,
      XR.nan_neg, XR.nan_div, XR.zero_mul_inf]

example : sisX.fwd (XR.ofReals ![0, 0, 0, 0, 1 / 10, 1]) (XR.ofReals (Pi.single 0 1)) = .nan :=
  ((C105_centre_sis_fails 0 0 (1 / 10) 1 (by norm_num)).2 _).1

/-- Likewise for a softened point mass. -/
theorem C105_centre_point_fails (x0 y0 s Rein : ℝ) (hs : 0 < s) :
    HasJac (pointDeflection x0 y0 Rein s) (Rein ^ 2 / s ^ 2) 0 0 (Rein ^ 2 / s ^ 2) x0 y0 ∧
      ∀ d, pointX.fwd (XR.ofReals ![x0, y0, x0, y0, s, Rein]) (XR.ofReals d) = .nan ∧
        pointY.fwd (XR.ofReals ![x0, y0, x0, y0, s, Rein]) (XR.ofReals d) = .nan := by
  have hc : ContinuousAt (fun p : ℝ × ℝ => Rein ^ 2 / (√((p.1 - x0) ^ 2 + (p.2 - y0) ^ 2) + s) ^ 2) (x0, y0) :=
    continuousAt_softened (fun t => Rein ^ 2 / t ^ 2)
      (continuousAt_const.div (continuousAt_id.pow 2) (pow_ne_zero 2 hs.ne'))
  refine ⟨⟨?_, ?_⟩, fun d => ⟨?_, ?_⟩⟩
  · convert hasGrad_mul_cont hc 1 0 using 1
    · funext x y
      simp only [pointDeflection, translateRotate]
      ring
    · simp
    · simp
  · convert hasGrad_mul_cont hc 0 1 using 1
    · funext x y
      simp only [pointDeflection, translateRotate]
      ring
    · simp
    · simp
  · simp [pointX, centred, fwd, val, Ex.add_eq, Ex.sub_eq, Ex.mul_eq, Ex.div_eq, cons_vec, XR.ofReals, XR.fin_add,
      XR.fin_neg, XR.fin_lift, UnOp.val, UnOp.coef, XR.fin_mul, XR.nan_add, XR.add_nan, XR.nan_mul,
      XR.nan_neg, XR.nan_div, XR.zero_mul_inf]
  · simp [pointY, centred, fwd, val, Ex.add_eq, Ex.sub_eq, Ex.mul_eq, Ex.div_eq, cons_vec, XR.ofReals, XR.fin_add,
      XR.fin_neg, XR.fin_lift, UnOp.val, UnOp.coef, XR.fin_mul, XR.nan_add, XR.add_nan, XR.nan_mul,
      XR.nan_neg, XR.nan_div, XR.zero_mul_inf]

/-! ### The Jacobian of the lens equation -/

/-- Derivatives with respect to the position alone. -/
theorem Exact.grad {n : ℕ} {e : Ex (n + 2)} {f : (Fin (n + 2) → ℝ) → ℝ} {x y : ℝ} {t : Fin n → ℝ}
    (h : Exact e f (Matrix.vecCons x (Matrix.vecCons y t))) :
    ∃ gx gy, HasGrad (fun x y => f (Matrix.vecCons x (Matrix.vecCons y t))) gx gy x y ∧
      e.fwd (XR.ofReals (Matrix.vecCons x (Matrix.vecCons y t))) (XR.ofReals (Pi.single 0 1)) = .fin gx ∧
      e.fwd (XR.ofReals (Matrix.vecCons x (Matrix.vecCons y t))) (XR.ofReals (Pi.single 1 1)) = .fin gy ∧
      e.rev (XR.ofReals (Matrix.vecCons x (Matrix.vecCons y t))) (.fin 1) 0 = .fin gx ∧
      e.rev (XR.ofReals (Matrix.vecCons x (Matrix.vecCons y t))) (.fin 1) 1 = .fin gy := by
  obtain ⟨D, hD, -, hd, hk⟩ := h
  refine ⟨D (Pi.single 0 1), D (Pi.single 1 1), ?_, hd _, hd _, hk _, hk _⟩
  have h1 : HasFDerivAt (fun p : ℝ × ℝ => (Matrix.vecCons p.1 (Matrix.vecCons p.2 t) : Fin (n + 2) → ℝ))
      ((ContinuousLinearMap.fst ℝ ℝ ℝ).smulRight (Pi.single 0 1 : Fin (n + 2) → ℝ) +
        (ContinuousLinearMap.snd ℝ ℝ ℝ).smulRight (Pi.single 1 1)) (x, y) := by
    rw [hasFDerivAt_pi']
    intro i
    refine Fin.cases ?_ (fun i => Fin.cases ?_ (fun i => ?_) i) i
    · refine (hasFDerivAt_fst (𝕜 := ℝ) (p := (x, y))).congr_fderiv ?_
      ext <;> simp
    · refine (hasFDerivAt_snd (𝕜 := ℝ) (p := (x, y))).congr_fderiv ?_
      ext <;> simp
    · refine (hasFDerivAt_const (𝕜 := ℝ) (t i) (x, y)).congr_fderiv ?_
      ext <;> simp [Fin.ext_iff, Pi.single_apply]
  show HasFDerivAt _ _ _
  refine (HasFDerivAt.comp (x, y) hD h1).congr_fderiv ?_
  ext <;> simp

/-- `jacobian_lens_equation(..., method="autograd")` of an isothermal sphere (lenses/base.py:468-494): the four numbers
forward mode returns are the Jacobian of the deflection. -/
theorem C105_sis_jacobian (x y x0 y0 s Rein : ℝ) (h : OffCentre x y x0 y0)
    (hs : √((x - x0) ^ 2 + (y - y0) ^ 2) + s ≠ 0) :
    ∃ a b c d, HasJac (sisDeflection x0 y0 Rein s) a b c d x y ∧
      sisX.fwd (XR.ofReals ![x, y, x0, y0, s, Rein]) (XR.ofReals (Pi.single 0 1)) = .fin a ∧
      sisX.fwd (XR.ofReals ![x, y, x0, y0, s, Rein]) (XR.ofReals (Pi.single 1 1)) = .fin b ∧
      sisY.fwd (XR.ofReals ![x, y, x0, y0, s, Rein]) (XR.ofReals (Pi.single 0 1)) = .fin c ∧
      sisY.fwd (XR.ofReals ![x, y, x0, y0, s, Rein]) (XR.ofReals (Pi.single 1 1)) = .fin d := by
  obtain ⟨hX, hY, -⟩ := C105_sis x y x0 y0 s Rein h hs
  obtain ⟨a, b, h1, h2, h3, -⟩ := hX.grad
  obtain ⟨c, d, h4, h5, h6, -⟩ := hY.grad
  exact ⟨a, b, c, d, ⟨h1, h4⟩, h2, h3, h5, h6⟩

/-- The same for the ellipsoid. -/
theorem C105_sie_jacobian (x y x0 y0 s q phi Rein : ℝ) (hq0 : 0 < q) (hq1 : q < 1) (hs : 0 ≤ s)
    (h : OffCentre x y x0 y0 ∨ 0 < s) :
    ∃ a b c d, HasJac (sieDeflection x0 y0 q phi Rein s) a b c d x y ∧
      sieX.fwd (XR.ofReals ![x, y, x0, y0, s, q, phi, Rein]) (XR.ofReals (Pi.single 0 1)) = .fin a ∧
      sieX.fwd (XR.ofReals ![x, y, x0, y0, s, q, phi, Rein]) (XR.ofReals (Pi.single 1 1)) = .fin b ∧
      sieY.fwd (XR.ofReals ![x, y, x0, y0, s, q, phi, Rein]) (XR.ofReals (Pi.single 0 1)) = .fin c ∧
      sieY.fwd (XR.ofReals ![x, y, x0, y0, s, q, phi, Rein]) (XR.ofReals (Pi.single 1 1)) = .fin d := by
  obtain ⟨hX, hY⟩ := C105_sie x y x0 y0 s q phi Rein hq0 hq1 hs h
  obtain ⟨a, b, h1, h2, h3, -⟩ := hX.grad
  obtain ⟨c, d, h4, h5, h6, -⟩ := hY.grad
  exact ⟨a, b, c, d, ⟨h1, h4⟩, h2, h3, h5, h6⟩

/-! ### The truncated NFW at its scale radius -/

/-- A cotangent that is NaN reaches every variable it can reach through arithmetic. -/
theorem rev_letE_fst {n : ℕ} {a : Ex n} {b : Ex (n + 1)} {ρ : Fin n → XR} {g : XR} {k : Fin n}
    (h : b.rev (Fin.cons (α := fun _ => XR) (a.val ρ) ρ) g k.succ = .nan) : (letE a b).rev ρ g k = .nan := by
  show XR.add _ _ = _
  rw [h, XR.nan_add]

theorem rev_letE_snd {n : ℕ} {a : Ex n} {b : Ex (n + 1)} {ρ : Fin n → XR} {g : XR} {k : Fin n}
    (h : b.rev (Fin.cons (α := fun _ => XR) (a.val ρ) ρ) g 0 = .nan) (ha : a.rev ρ .nan k = .nan) :
    (letE a b).rev ρ g k = .nan := by
  show XR.add _ (a.rev ρ (b.rev _ g 0) k) = _
  rw [h, ha, XR.add_nan]

theorem tnfwTail_nan (ρ : Fin 18 → XR) (g : XR) (k : Fin 18) (hk : k = 0 ∨ k = 3) (h4 : ρ 4 = .fin 1) :
    (tnfwTail tnfwA2).rev ρ g k = .nan := by
  rcases hk with rfl | rfl
  all_goals simp [tnfwTail, tnfwA2, rev, val, Ex.add_eq, Ex.sub_eq, Ex.mul_eq, Ex.div_eq, Ex.neg_eq, h4, XR.fin_add, XR.fin_neg,
    XR.fin_lift, UnOp.val, UnOp.coef, XR.fin_mul, Cmp.test, XR.div, XR.nan_add, XR.add_nan, XR.nan_mul, XR.nan_neg]

theorem tnfwF_rev_nan {n : ℕ} (ρ : Fin (n + 1) → XR) (h : ρ 0 = .fin 1) : tnfwFEx.rev ρ .nan 0 = .nan := by
  refine rev_letE_fst (rev_letE_fst ?_)
  have h2 : (Fin.cons (α := fun _ => XR) ((clampMax (v 1) (1 - 1e-3)).val
      (Fin.cons (α := fun _ => XR) ((clampMin (v 0) (1 + 1e-3)).val ρ) ρ))
      (Fin.cons (α := fun _ => XR) ((clampMin (v 0) (1 + 1e-3)).val ρ) ρ) : Fin (n + 3) → XR) 2 = .fin 1 := h
  generalize (Fin.cons (α := fun _ => XR) ((clampMax (v 1) (1 - 1e-3)).val
      (Fin.cons (α := fun _ => XR) ((clampMin (v 0) (1 + 1e-3)).val ρ) ρ))
      (Fin.cons (α := fun _ => XR) ((clampMin (v 0) (1 + 1e-3)).val ρ) ρ) : Fin (n + 3) → XR) = ρ' at h2 ⊢
  have t1 : Cmp.lt.test (ρ' 2) (.fin (1 - 1e-2)) = some false := by
    rw [h2]
    simp [Cmp.test]
    norm_num
  have t2 : Cmp.lt.test (.fin (1 + 1e-2)) (ρ' 2) = some false := by
    rw [h2]
    simp [Cmp.test]
    norm_num
  have hs : (const 1 - const 2 * (v 2 - const 1) / const 3 + const 7 * un .sq (v 2 - const 1) / const 15 :
      Ex (n + 3)).rev ρ' .nan 2 = .nan := by
    show XR.add (XR.add (.fin 0) (XR.add (XR.add (.fin 0) (XR.add (if (2 : Fin (n + 3)) = 2 then _ else _) _)) _)) _ = _
    rw [if_pos rfl]
    show XR.add (XR.add (.fin 0) (XR.add (XR.add (.fin 0) (XR.add (XR.mul (XR.div .nan _) _) _)) _)) _ = _
    simp only [XR.nan_div, XR.nan_mul, XR.nan_add, XR.add_nan]
  show (match Cmp.lt.test (ρ' 2) (.fin (1 - 1e-2)) with
    | some true => _
    | some false => XR.add _ (match Cmp.lt.test (.fin (1 + 1e-2)) (ρ' 2) with
      | some true => _
      | some false => XR.add _ ((const 1 - const 2 * (v 2 - const 1) / const 3 + const 7 * un .sq (v 2 - const 1) /
        const 15 : Ex (n + 3)).rev ρ' .nan 2)
      | none => _)
    | none => _) = _
  rw [t1, t2]
  show XR.add _ (XR.add _ ((const 1 - const 2 * (v 2 - const 1) / const 3 + const 7 * un .sq (v 2 - const 1) /
        const 15 : Ex (n + 3)).rev ρ' .nan 2)) = _
  rw [hs, XR.add_nan, XR.add_nan]

theorem tnfw_g_one (ρ : Fin 10 → ℝ) (hR : ρ 5 ≠ 0) (h : √((ρ 0 - ρ 2) ^ 2 + (ρ 1 - ρ 3) ^ 2) + ρ 4 = ρ 5) :
    (v 0 / v 8 : Ex 13).val (Fin.cons (α := fun _ => XR) ((un .sqrt (un .sq (v 1) + un .sq (v 0)) + v 6 :
      Ex 12).val (Fin.cons (α := fun _ => XR)
      ((v 2 - v 4 : Ex 11).val (Fin.cons (α := fun _ => XR) ((v 0 - v 2 : Ex 10).val (XR.ofReals ρ)) (XR.ofReals ρ)))
      (Fin.cons (α := fun _ => XR) ((v 0 - v 2 : Ex 10).val (XR.ofReals ρ)) (XR.ofReals ρ)))) (Fin.cons
      (α := fun _ => XR)
      ((v 2 - v 4 : Ex 11).val (Fin.cons (α := fun _ => XR) ((v 0 - v 2 : Ex 10).val (XR.ofReals ρ)) (XR.ofReals ρ)))
      (Fin.cons (α := fun _ => XR) ((v 0 - v 2 : Ex 10).val (XR.ofReals ρ)) (XR.ofReals ρ)))) = .fin 1 := by
  have hx : (v 0 - v 2 : Ex 10).val (XR.ofReals ρ) = .fin (ρ 0 - ρ 2) := by
    show XR.add (.fin _) (.fin _) = _
    rw [XR.fin_add, ← sub_eq_add_neg]
  have hy : (v 2 - v 4 : Ex 11).val (Fin.cons (α := fun _ => XR) ((v 0 - v 2 : Ex 10).val (XR.ofReals ρ)) (XR.ofReals ρ))
      = .fin (ρ 1 - ρ 3) := by
    show XR.add (.fin (ρ 1)) (.fin (-ρ 3)) = _
    rw [XR.fin_add, ← sub_eq_add_neg]
  have hr : (un .sqrt (un .sq (v 1) + un .sq (v 0)) + v 6 : Ex 12).val (Fin.cons (α := fun _ => XR)
      ((v 2 - v 4 : Ex 11).val (Fin.cons (α := fun _ => XR) ((v 0 - v 2 : Ex 10).val (XR.ofReals ρ)) (XR.ofReals ρ)))
      (Fin.cons (α := fun _ => XR) ((v 0 - v 2 : Ex 10).val (XR.ofReals ρ)) (XR.ofReals ρ)))
      = .fin (√((ρ 0 - ρ 2) ^ 2 + (ρ 1 - ρ 3) ^ 2) + ρ 4) := by
    rw [hy, hx]
    show XR.add (if 0 ≤ (ρ 0 - ρ 2) ^ 2 + (ρ 1 - ρ 3) ^ 2 then _ else _) _ = _
    rw [if_pos (by positivity)]
    rfl
  rw [hr]
  show XR.div (.fin _) (.fin (ρ 5)) = _
  rw [h]
  simp [XR.div, hR]

/-- At the scale radius of a truncated NFW reverse mode returns NaN for the derivative of the convergence with respect to
the position and to `tau`, although the convergence there is finite and smooth
(`C105_tnfw_scale_radius_forward_fails`). -/
theorem C105_tnfw_scale_radius_reverse_fails (ρ : Fin 10 → ℝ) (hR : ρ 5 ≠ 0)
    (h : √((ρ 0 - ρ 2) ^ 2 + (ρ 1 - ρ 3) ^ 2) + ρ 4 = ρ 5) (g : ℝ) :
    tnfwConv.rev (XR.ofReals ρ) (.fin g) 0 = .nan ∧ tnfwConv.rev (XR.ofReals ρ) (.fin g) 6 = .nan := by
  have hG := tnfw_g_one ρ hR h
  constructor
  · refine rev_letE_snd (rev_letE_fst (rev_letE_snd (rev_letE_snd (rev_letE_snd (rev_letE_fst (rev_letE_fst
      (rev_letE_fst ?_))) ?_) ?_) ?_)) ?_
    · exact tnfwTail_nan _ _ 3 (.inr rfl) hG
    · exact tnfwF_rev_nan _ hG
    · simp [rev, Ex.add_eq, Ex.sub_eq, Ex.div_eq, XR.nan_add, XR.nan_mul, XR.nan_div]
    · simp [rev, Ex.add_eq, Ex.sub_eq, Ex.div_eq, XR.nan_add, XR.nan_mul, XR.nan_div]
    · simp [rev, Ex.add_eq, Ex.sub_eq, Ex.div_eq, XR.nan_add, XR.nan_mul, XR.nan_div]
  · refine rev_letE_fst (rev_letE_fst (rev_letE_fst (rev_letE_fst (rev_letE_fst (rev_letE_fst (rev_letE_fst
      (rev_letE_snd ?_ ?_)))))))
    · exact tnfwTail_nan _ _ 0 (.inl rfl) hG
    · simp [rev, XR.nan_mul]

example : tnfwConv.rev (XR.ofReals ![1, 0, 0, 0, 0, 1, 3, 1, 1, 1]) (.fin 1) 0 = .nan :=
  (C105_tnfw_scale_radius_reverse_fails ![1, 0, 0, 0, 0, 1, 3, 1, 1, 1] (by simp) (by simp) 1).1

/-- The program with the branch that is selected at the scale radius. -/
noncomputable def tnfwTie : Ex 10 := tnfwHead (tnfwTail ((v 0 + const 1) / const 3))

theorem tnfw_fwd_tie (ρ : Fin 10 → ℝ) (hR : ρ 5 ≠ 0) (h : √((ρ 0 - ρ 2) ^ 2 + (ρ 1 - ρ 3) ^ 2) + ρ 4 = ρ 5)
    (d : Fin 10 → XR) : tnfwConv.fwd (XR.ofReals ρ) d = tnfwTie.fwd (XR.ofReals ρ) d := by
  have hG := tnfw_g_one ρ hR h
  have key : ∀ (σ δ : Fin 18 → XR), σ 4 = .fin 1 →
      (tnfwTail tnfwA2).fwd σ δ = (tnfwTail ((v 0 + const 1) / const 3)).fwd σ δ := by
    intro σ δ hσ
    have hv : tnfwA2.val σ = ((v 0 + const 1) / const 3 : Ex 18).val σ := by
      simp [tnfwA2, val, hσ, Cmp.test]
    have hf : tnfwA2.fwd σ δ = ((v 0 + const 1) / const 3 : Ex 18).fwd σ δ := by
      simp [tnfwA2, fwd, val, hσ, Cmp.test]
    simp only [tnfwTail, Ex.add_eq, Ex.mul_eq, Ex.div_eq, Ex.sub_eq, Ex.neg_eq, fwd, val] at hv hf ⊢
    rw [hv, hf]
  exact key _ _ hG

theorem tnfwTie_reg (x y x0 y0 s Rs tau sigmacr M0 d_l : ℝ) (h : OffCentre x y x0 y0) (hR : 0 < Rs)
    (ht : 0 < tau) (hsig : 0 < sigmacr) (hd : 0 < d_l) (hs : √((x - x0) ^ 2 + (y - y0) ^ 2) + s = Rs) :
    tnfwTie.Reg true ![x, y, x0, y0, s, Rs, tau, sigmacr, M0, d_l] := by
  have hg : (√((x - x0) ^ 2 + (y - y0) ^ 2) + s) / Rs = 1 := by rw [hs, div_self hR.ne']
  have ha := arcsecToRad_pos
  refine centred_reg h ?_
  have p1 : 0 < tau ^ 2 + ((√((x - x0) ^ 2 + (y - y0) ^ 2) + s) / Rs) ^ 2 := by positivity
  have p2 : 0 < tau + √(tau ^ 2 + ((√((x - x0) ^ 2 + (y - y0) ^ 2) + s) / Rs) ^ 2) := by positivity
  have hg0 : 0 < (√((x - x0) ^ 2 + (y - y0) ^ 2) + s) / Rs := by rw [hg]; exact one_pos
  have p3 : 0 < (√((x - x0) ^ 2 + (y - y0) ^ 2) + s) / Rs /
      (tau + √(tau ^ 2 + ((√((x - x0) ^ 2 + (y - y0) ^ 2) + s) / Rs) ^ 2)) := div_pos hg0 p2
  have p4 : 2 * π * (Rs * d_l * arcsecToRad) ^ 2 ≠ 0 := by positivity
  have p5 : (tau ^ 2 + 1) ^ 2 ≠ 0 := by positivity
  have p7 : tau * √(tau ^ 2 + ((√((x - x0) ^ 2 + (y - y0) ^ 2) + s) / Rs) ^ 2) ≠ 0 :=
    mul_ne_zero ht.ne' (sqrt_pos.2 p1).ne'
  have far : ∀ a : ℝ, a ≠ 1 → (√((x - x0) ^ 2 + (y - y0) ^ 2) + s) / Rs ≠ a := fun a h1 h2 => h1 (h2 ▸ hg)
  refine ⟨⟨trivial, trivial, hR.ne'⟩, tnfwFEx_reg hg0 (far _ (by norm_num)) (far _ (by norm_num))
    (far _ (by norm_num)) (far _ (by norm_num)), ?_⟩
  unfold tnfwTail
  regs
  exacts [p1, p2.ne', p3, p4, p5, three_ne_zero, p1, (sqrt_pos.2 p1).ne', p1, p7, hsig.ne']

theorem tnfwTie_sem (v : Fin 10 → ℝ) {g : ℝ} (hg : g = (√((v 0 - v 2) ^ 2 + (v 1 - v 3) ^ 2) + v 4) / v 5) (hl : 1 - 1e-2 < g)
    (hu : g < 1 + 1e-2) :
    (tnfwAt v).convergence (v 0) (v 1) = tnfwTie.sem v +
      v 6 ^ 2 / (v 6 ^ 2 + 1) ^ 2 * (v 6 ^ 2 + 1) * ((2 / 3 - 7 * (g - 1) / 15) / (g + 1) - 1 / 3) *
        (v 8 / (2 * π * (v 5 * v 9 * arcsecToRad) ^ 2)) / v 7 := by
  have hF : tnfwF g = 1 - 2 * (g - 1) / 3 + 7 * (g - 1) ^ 2 / 15 := by
    unfold tnfwF
    simp only []
    rw [if_neg (by linarith), if_neg (by linarith)]
  have h2 : tnfwTie.sem v = v 6 ^ 2 / (v 6 ^ 2 + 1) ^ 2 * ((v 6 ^ 2 + 1) / 3 + 2 * tnfwF g + -π / √(v 6 ^ 2 + g ^ 2)
      + (v 6 ^ 2 - 1) * tnfwL g (v 6) / (v 6 * √(v 6 ^ 2 + g ^ 2))) * (v 8 / (2 * π * (v 5 * v 9 * arcsecToRad) ^ 2)) / v 7 := by
    subst hg
    rw [← tnfwFEx_sem (n := 0) (fun _ => _)]
    rfl
  have h3 : (if g = 1 then (v 6 ^ 2 + 1) / 3 else (v 6 ^ 2 + 1) * (1 - tnfwF g) / (g ^ 2 - 1)) =
      (v 6 ^ 2 + 1) * ((2 / 3 - 7 * (g - 1) / 15) / (g + 1)) := by
    have h4 : g + 1 ≠ 0 := by linarith
    split_ifs with h1
    · rw [h1]; ring
    · have h5 : g - 1 ≠ 0 := sub_ne_zero.2 h1
      rw [hF, show g ^ 2 - 1 = (g - 1) * (g + 1) by ring]
      field_simp
      ring
  have h1 : (tnfwAt v).convergence (v 0) (v 1) = v 6 ^ 2 / (v 6 ^ 2 + 1) ^ 2 * (
      (if g = 1 then (v 6 ^ 2 + 1) / 3 else (v 6 ^ 2 + 1) * (1 - tnfwF g) / (g ^ 2 - 1)) + 2 * tnfwF g + -π / √(v 6 ^ 2 + g ^ 2)
      + (v 6 ^ 2 - 1) * tnfwL g (v 6) / (v 6 * √(v 6 ^ 2 + g ^ 2))) * (v 8 / (2 * π * (v 5 * v 9 * arcsecToRad) ^ 2)) / v 7 := by
    subst hg
    rfl
  rw [h1, h2, h3]
  ring

/-- At the scale radius forward mode gives a number, and the number is wrong: it misses the derivative of the term whose
limit is written out, `(t2 + 1) / 3`. Stated for the softening length, which moves the radius. -/
theorem C105_tnfw_scale_radius_forward_fails (x y x0 y0 s Rs tau sigmacr M0 d_l : ℝ) (h : OffCentre x y x0 y0) (hR : 0 < Rs)
    (ht : 0 < tau) (hsig : 0 < sigmacr) (hd : 0 < d_l) (hs : √((x - x0) ^ 2 + (y - y0) ^ 2) + s = Rs) :
    ∃ m, HasDerivAt (fun s => (tnfwAt ![x, y, x0, y0, s, Rs, tau, sigmacr, M0, d_l]).convergence x y) m s ∧
      tnfwConv.fwd (XR.ofReals ![x, y, x0, y0, s, Rs, tau, sigmacr, M0, d_l]) (XR.ofReals (Pi.single 4 1)) =
        .fin (m + 2 / 5 / Rs * (tau ^ 2 / (tau ^ 2 + 1)) * (M0 / (2 * π * (Rs * d_l * arcsecToRad) ^ 2)) / sigmacr) := by
  obtain ⟨D, hD, fD⟩ := fwd_reg (tnfwTie_reg x y x0 y0 s Rs tau sigmacr M0 d_l h hR ht hsig hd hs).weaken
  refine ⟨D (Pi.single 4 1) - 2 / 5 / Rs * (tau ^ 2 / (tau ^ 2 + 1)) *
    (M0 / (2 * π * (Rs * d_l * arcsecToRad) ^ 2)) / sigmacr, ?_, ?_⟩
  · have hc : HasDerivAt (fun s => ![x, y, x0, y0, s, Rs, tau, sigmacr, M0, d_l]) (Pi.single 4 1) s := by
      refine hasDerivAt_pi.2 fun i => ?_
      fin_cases i
      case «4» => exact hasDerivAt_id s
      all_goals exact hasDerivAt_const s _
    have h1 := hD.comp_hasDerivAt s hc
    have hg : HasDerivAt (fun s => (√((x - x0) ^ 2 + (y - y0) ^ 2) + s) / Rs) (1 / Rs) s :=
      ((hasDerivAt_id s).const_add _).div_const Rs
    have hg1 : (√((x - x0) ^ 2 + (y - y0) ^ 2) + s) / Rs = 1 := by rw [hs, div_self hR.ne']
    have h2 : HasDerivAt (fun g : ℝ => (2 / 3 - 7 * (g - 1) / 15) / (g + 1) - 1 / 3) (-(2 / 5))
        ((√((x - x0) ^ 2 + (y - y0) ^ 2) + s) / Rs) := by
      rw [hg1]
      have := ((((hasDerivAt_id (1 : ℝ)).sub_const 1).const_mul 7).div_const 15).const_sub (2 / 3)
      have h3 := (this.div ((hasDerivAt_id (1 : ℝ)).add_const 1) (by norm_num)).sub_const (1 / 3)
      refine h3.congr_deriv ?_
      norm_num
    have h3 := h2.comp s hg
    have h4 := (((h3.const_mul (tau ^ 2 / (tau ^ 2 + 1) ^ 2 * (tau ^ 2 + 1))).mul_const
      (M0 / (2 * π * (Rs * d_l * arcsecToRad) ^ 2))).div_const sigmacr)
    refine ((h1.add h4).congr_of_eventuallyEq ?_).congr_deriv ?_
    · have n1 := hg.continuousAt.eventually_const_lt (u := 1 - 1e-2) (by simp only [hg1]; norm_num)
      have n2 := hg.continuousAt.eventually_lt_const (u := 1 + 1e-2) (by simp only [hg1]; norm_num)
      filter_upwards [n1, n2] with s' k1 k2
      exact tnfwTie_sem ![x, y, x0, y0, s', Rs, tau, sigmacr, M0, d_l] rfl k1 k2
    · have : tau ^ 2 + 1 ≠ 0 := by positivity
      field_simp
      ring
  · rw [tnfw_fwd_tie _ hR.ne' hs, fD, sub_add_cancel]

/-- So the derivative forward mode returns is not the derivative. -/
example : ∃ m n : ℝ, m ≠ n ∧
    HasDerivAt (fun s => (tnfwAt ![1, 0, 0, 0, s, 1, 3, 1, 1, 1]).convergence 1 0) m 0 ∧
    tnfwConv.fwd (XR.ofReals ![1, 0, 0, 0, 0, 1, 3, 1, 1, 1]) (XR.ofReals (Pi.single 4 1)) = .fin n := by
  have ha := arcsecToRad_pos
  obtain ⟨m, h1, h2⟩ := C105_tnfw_scale_radius_forward_fails 1 0 0 0 0 1 3 1 1 1 (by norm_num [OffCentre]) one_pos
    (by norm_num) one_pos one_pos (by norm_num)
  refine ⟨m, _, ?_, h1, h2⟩
  have : 0 < 2 / 5 / 1 * ((3 : ℝ) ^ 2 / (3 ^ 2 + 1)) * (1 / (2 * π * (1 * 1 * arcsecToRad) ^ 2)) / 1 := by positivity
  linarith

end Caustics

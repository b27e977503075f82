import Verif.Lemmas.AutoDiffNested
import Verif.Props.AutoDiff

/-!
C123: derivatives of derivatives.  The Jacobian and the magnification of a lens are themselves computed by automatic
differentiation; differentiating them again gives their exact derivatives, to any order.  The exception is what goes
through `jacobian_lens_equation(method="autograd")`, hence `shear`: its derivative is reported as zero.

`Exact` is the notion of C105: the value, the derivative along every direction in forward mode and every partial
derivative in reverse mode.
-/

open Real Filter Topology

namespace Caustics

open Ex

/-- Partial derivatives of a function of several variables, taken one after the other, the last of the list first. -/
noncomputable def partials {n : ℕ} (f : (Fin n → ℝ) → ℝ) : List (Fin n) → (Fin n → ℝ) → ℝ
  | [] => f
  | j :: l => fun ρ => fderiv ℝ (partials f l) ρ (Pi.single j 1)

/-- `jacfwd` applied again and again, each time with respect to one variable. -/
noncomputable def cols {n : ℕ} (e : Ex n) : List (Fin n) → Ex n
  | [] => e
  | j :: l => (cols e l).col j

theorem cols_reg {both : Bool} {n : ℕ} {e : Ex n} {ρ : Fin n → ℝ} (h : e.Reg both ρ) (l : List (Fin n)) :
    (cols e l).Reg both ρ := by
  induction l with
  | nil => exact h
  | cons j l ih => exact col_reg ih j

theorem cols_sem {n : ℕ} {e : Ex n} {ρ : Fin n → ℝ} (h : e.Reg false ρ) (l : List (Fin n)) :
    partials e.sem l =ᶠ[𝓝 ρ] (cols e l).sem := by
  induction l generalizing ρ with
  | nil => exact EventuallyEq.rfl
  | cons j l ih =>
    filter_upwards [h.eventually] with ρ' h'
    show fderiv ℝ (partials e.sem l) ρ' (Pi.single j 1) = ((cols e l).col j).sem ρ'
    rw [col_sem (cols_reg h' l), (ih h').fderiv_eq]

/-- Derivatives of any order, in any variables, are exact, wherever the program can be differentiated once: `jacfwd` of
`jacfwd` of ..., and whatever mode comes last. -/
theorem C123_any_order {n : ℕ} (e : Ex n) (ρ : Fin n → ℝ) (h : e.Reg true ρ) (l : List (Fin n)) :
    Exact (cols e l) (partials e.sem l) ρ :=
  .of_reg_near (cols_reg h l) (cols_sem h.weaken l)

/-- The second derivative of `sqrt(x)` at 4 is `-1/32`, by forward mode over forward mode. -/
example : (cols (un .sqrt (v 0) : Ex 1) [0]).fwd (XR.ofReals ![4]) (XR.ofReals ![1]) = .fin (-(1 / 32)) := by
  have h4 : √(4 : ℝ) = 2 := by
    rw [show (4 : ℝ) = 2 ^ 2 by norm_num, sqrt_sq two_pos.le]
  simp [cols, col, tangent, coefEx, ren, fwd, val, XR.ofReals, XR.lift, UnOp.val, UnOp.coef, XR.mul, XR.add, XR.div,
    XR.neg, Ex.mul_eq, Ex.div_eq, Ex.v, h4]
  norm_num

/-- `tangent` is the program forward mode executes: run on numbers, it returns what forward mode returns. -/
theorem C123_forward_program {n : ℕ} (e : Ex n) (ρ : Fin n → ℝ) (h : e.Reg false ρ) (j : Fin n) :
    (e.col j).val (XR.ofReals ρ) = e.fwd (XR.ofReals ρ) (XR.ofReals (Pi.single j 1)) := by
  obtain ⟨D, hD, hd⟩ := fwd_reg h
  rw [val_reg (col_reg h j), col_sem h, hd, hD.fderiv]

/-- `where(x < 1, x**2, sqrt(x - 2))` at `x = 0`: the branch not taken is outside its domain, forward mode does not mind. -/
example : ((ite .lt (v 0) (const 1) (un .sq (v 0)) (un .sqrt (v 0 - const 2)) : Ex 1).col 0).val (XR.ofReals ![0])
    = .fin 0 := by
  have h : (ite .lt (v 0) (const 1) (un .sq (v 0)) (un .sqrt (v 0 - const 2)) : Ex 1).Reg false ![0] :=
    ⟨trivial, trivial, zero_ne_one, fun _ => ⟨trivial, trivial⟩,
      fun h => absurd (h.resolve_left (by simp)) (not_not.2 (show (0 : ℝ) < 1 from one_pos))⟩
  rw [C123_forward_program _ _ h]
  simp [fwd, val, XR.ofReals, Cmp.test, XR.lift, UnOp.coef, XR.mul]

/-! ### Jacobian of the deflection, magnification, finite differences -/

/-- `jacobian_deflection_angle` (thin) and `jacobian_effective_deflection_angle` (thick): value and derivatives with
respect to position and parameters. -/
theorem C123_jacobian_deflection {n : ℕ} (ax ay : Ex (n + 2)) (ρ : Fin (n + 2) → ℝ) (hx : ax.Reg true ρ)
    (hy : ay.Reg true ρ) :
    Exact (jacDeflection ax ay).a00 (partials ax.sem [0]) ρ ∧ Exact (jacDeflection ax ay).a01 (partials ax.sem [1]) ρ ∧
    Exact (jacDeflection ax ay).a10 (partials ay.sem [0]) ρ ∧ Exact (jacDeflection ax ay).a11 (partials ay.sem [1]) ρ :=
  ⟨C123_any_order ax ρ hx [0], C123_any_order ax ρ hx [1], C123_any_order ay ρ hy [0], C123_any_order ay ρ hy [1]⟩

theorem extShear_reg (ρ : Fin 6 → ℝ) : extShearX.Reg true ρ ∧ extShearY.Reg true ρ := by
  constructor
  · unfold extShearX
    regs
  · unfold extShearY
    regs

theorem extShear_sem : extShearX.sem = (fun v => (shearDeflection (v 2) (v 3) (v 4) (v 5) (v 0) (v 1)).1) ∧
    extShearY.sem = fun v => (shearDeflection (v 2) (v 3) (v 4) (v 5) (v 0) (v 1)).2 := ⟨rfl, rfl⟩

theorem Exact.fwd_eq {n : ℕ} {e : Ex n} {f : (Fin n → ℝ) → ℝ} {ρ : Fin n → ℝ} (h : Exact e f ρ)
    {D : (Fin n → ℝ) →L[ℝ] ℝ} (hD : HasFDerivAt f D ρ) (d : Fin n → ℝ) :
    e.fwd (XR.ofReals ρ) (XR.ofReals d) = .fin (D d) := by
  obtain ⟨D', hD', -, hf, -⟩ := h
  rw [hf, hD'.unique hD]

theorem extShear_fderiv (v : Fin 6 → ℝ) :
    HasFDerivAt extShearX.sem ((v 4 • (ContinuousLinearMap.proj (R := ℝ) (φ := fun _ : Fin 6 => ℝ) 0 - .proj 2)
        + (v 0 - v 2) • .proj 4) + (v 5 • (.proj 1 - .proj 3) + (v 1 - v 3) • .proj 5)) v ∧
    HasFDerivAt extShearY.sem ((v 5 • (ContinuousLinearMap.proj (R := ℝ) (φ := fun _ : Fin 6 => ℝ) 0 - .proj 2)
        + (v 0 - v 2) • .proj 5) - (v 4 • (.proj 1 - .proj 3) + (v 1 - v 3) • .proj 4)) v := by
  have h := fun i => hasFDerivAt_apply (𝕜 := ℝ) (F' := fun _ : Fin 6 => ℝ) i v
  exact ⟨((h 4).mul ((h 0).sub (h 2))).add ((h 5).mul ((h 1).sub (h 3))),
    ((h 5).mul ((h 0).sub (h 2))).sub ((h 4).mul ((h 1).sub (h 3)))⟩

/-- The Jacobian of the deflection of an external shear. -/
theorem extShear_partials : partials extShearX.sem [0] = (fun v => v 4) ∧ partials extShearX.sem [1] = (fun v => v 5) ∧
    partials extShearY.sem [0] = (fun v => v 5) ∧ partials extShearY.sem [1] = fun v => -v 4 := by
  refine ⟨?_, ?_, ?_, ?_⟩ <;> funext w <;> simp only [partials]
  · rw [(extShear_fderiv w).1.fderiv]; simp
  · rw [(extShear_fderiv w).1.fderiv]; simp
  · rw [(extShear_fderiv w).2.fderiv]; simp
  · rw [(extShear_fderiv w).2.fderiv]; simp

/-- The derivative of the Jacobian of an external shear with respect to `gamma_1`, in forward mode. -/
example (ρ : Fin 6 → ℝ) : (jacDeflection extShearX extShearY).a00.fwd (XR.ofReals ρ) (XR.ofReals (Pi.single 4 1)) = .fin 1 := by
  have h := (C123_jacobian_deflection _ _ ρ (extShear_reg ρ).1 (extShear_reg ρ).2).1
  rw [extShear_partials.1] at h
  rw [h.fwd_eq (hasFDerivAt_apply (𝕜 := ℝ) (F' := fun _ : Fin 6 => ℝ) 4 ρ)]
  simp

theorem magnification_det_reg {n : ℕ} {ax ay : Ex (n + 2)} {ρ : Fin (n + 2) → ℝ} (hx : ax.Reg true ρ) (hy : ay.Reg true ρ) :
    ((var 0 - ax : Ex (n + 2)).col 0 * (var 1 - ay : Ex (n + 2)).col 1
      - (var 0 - ax : Ex (n + 2)).col 1 * (var 1 - ay : Ex (n + 2)).col 0).Reg true ρ :=
  have h0 : (var 0 - ax : Ex (n + 2)).Reg true ρ := ⟨trivial, hx⟩
  have h1 : (var 1 - ay : Ex (n + 2)).Reg true ρ := ⟨trivial, hy⟩
  ⟨⟨col_reg h0 0, col_reg h1 1⟩, col_reg h0 1, col_reg h1 0⟩

theorem ray_partial {n : ℕ} {a : Ex (n + 2)} {ρ : Fin (n + 2) → ℝ} (h : a.Reg false ρ) (i j : Fin (n + 2)) :
    ((var i - a : Ex (n + 2)).col j).sem ρ = (if j = i then 1 else 0) - partials a.sem [j] ρ := by
  have h0 : (var i - a : Ex (n + 2)).Reg false ρ := ⟨trivial, h⟩
  obtain ⟨D, hD, -⟩ := fwd_reg h
  have h1 : HasFDerivAt (var i - a : Ex (n + 2)).sem (ContinuousLinearMap.proj i - D) ρ :=
    (hasFDerivAt_apply (𝕜 := ℝ) i ρ).sub hD
  have h2 : partials a.sem [j] ρ = D (Pi.single j 1) := by
    show fderiv ℝ a.sem ρ (Pi.single j 1) = _
    rw [hD.fderiv]
  rw [col_sem h0, h1.fderiv, h2]
  simp [Pi.single_apply, eq_comm]

/-- `magnification`, off the critical curves: value and derivatives with respect to position and parameters. -/
theorem C123_magnification {n : ℕ} (ax ay : Ex (n + 2)) (ρ : Fin (n + 2) → ℝ) (hx : ax.Reg true ρ) (hy : ay.Reg true ρ)
    (hd : (1 - partials ax.sem [0] ρ) * (1 - partials ay.sem [1] ρ) - partials ax.sem [1] ρ * partials ay.sem [0] ρ ≠ 0) :
    Exact (pixelMagnificationEx ax ay) (fun ρ => 1 / |(1 - partials ax.sem [0] ρ) * (1 - partials ay.sem [1] ρ)
      - partials ax.sem [1] ρ * partials ay.sem [0] ρ|) ρ := by
  have key : ∀ ρ', ax.Reg true ρ' → ay.Reg true ρ' →
      ((var 0 - ax : Ex (n + 2)).col 0 * (var 1 - ay : Ex (n + 2)).col 1
        - (var 0 - ax : Ex (n + 2)).col 1 * (var 1 - ay : Ex (n + 2)).col 0).sem ρ'
      = (1 - partials ax.sem [0] ρ') * (1 - partials ay.sem [1] ρ') - partials ax.sem [1] ρ' * partials ay.sem [0] ρ' := by
    intro ρ' h1 h2
    show ((var 0 - ax : Ex (n + 2)).col 0).sem ρ' * ((var 1 - ay : Ex (n + 2)).col 1).sem ρ'
      - ((var 0 - ax : Ex (n + 2)).col 1).sem ρ' * ((var 1 - ay : Ex (n + 2)).col 0).sem ρ' = _
    rw [ray_partial h1.weaken, ray_partial h1.weaken, ray_partial h2.weaken, ray_partial h2.weaken]
    simp
  refine .of_reg_near ⟨magnification_det_reg hx hy, trivial, ?_, ?_⟩ ?_
  · refine ⟨trivial, trivial, ?_, fun _ => trivial, fun _ => trivial⟩
    rw [key ρ hx hy]
    exact hd
  · intro h
    rw [key ρ hx hy] at h
    refine hd ?_
    revert h
    simp only [sem, Cmp.holds, Fin.cons_zero]
    split
    · intro h; exact neg_eq_zero.1 h
    · exact id
  · filter_upwards [hx.eventually, hy.eventually] with ρ' h1 h2
    show _ = (1 : ℝ) / _
    rw [key ρ' h1 h2]
    congr 1
    simp only [sem, Cmp.holds, Fin.cons_zero]
    split
    · rename_i h; exact abs_of_neg h
    · rename_i h; exact abs_of_nonneg (not_lt.1 h)

/-- External shear `(0.3, 0.4)`: the magnification is `1 / |1 - 0.09 - 0.16|`, and its gradient is the derivative. -/
example : Exact (pixelMagnificationEx extShearX extShearY) (fun ρ => 1 / |(1 - ρ 4) * (1 + ρ 4) - ρ 5 * ρ 5|)
    ![1, 2, 0, 0, 0.3, 0.4] := by
  have h := C123_magnification extShearX extShearY ![1, 2, 0, 0, 0.3, 0.4] (extShear_reg _).1 (extShear_reg _).2
  simp only [extShear_partials.1, extShear_partials.2.1, extShear_partials.2.2.1, extShear_partials.2.2.2] at h
  simp only [sub_neg_eq_add] at h
  refine h ?_
  show (1 - 0.3) * (1 + 0.3) - 0.4 * 0.4 ≠ (0 : ℝ)
  norm_num

theorem moved_env {n : ℕ} (ρ : Fin n → ℝ) (j : Fin n) (a : ℝ) :
    (fun i => Fin.cons (α := fun _ => ℝ) a ρ ((fun i => if i = j then 0 else i.succ : Fin n → Fin (n + 1)) i))
      = Function.update ρ j a := by
  funext i
  by_cases h : i = j
  · subst h; simp
  · simp [h]

theorem moved_reg {both : Bool} {n : ℕ} (e : Ex n) (j : Fin n) (c : ℝ) (ρ : Fin n → ℝ)
    (h : e.Reg both (Function.update ρ j (ρ j + c))) : (e.moved j c).Reg both ρ :=
  ⟨⟨trivial, trivial⟩, (ren_reg _ _ _).2 (by rw [moved_env]; exact h)⟩

theorem moved_sem {n : ℕ} (e : Ex n) (j : Fin n) (c : ℝ) (ρ : Fin n → ℝ) :
    (e.moved j c).sem ρ = e.sem (Function.update ρ j (ρ j + c)) := by
  show (e.ren _).sem _ = _
  rw [ren_sem, moved_env]
  rfl

/-- The central difference of a function with respect to variable `j`. -/
noncomputable def central {n : ℕ} (f : (Fin n → ℝ) → ℝ) (ps : ℝ) (j : Fin n) (ρ : Fin n → ℝ) : ℝ :=
  (f (Function.update ρ j (ρ j + ps)) - f (Function.update ρ j (ρ j - ps))) / (2 * ps)

/-- A program may be differentiated at the four pixels next to the position. -/
def RegAround {n : ℕ} (e : Ex (n + 2)) (ps : ℝ) (ρ : Fin (n + 2) → ℝ) : Prop :=
  ∀ j : Fin (n + 2), j = 0 ∨ j = 1 → e.Reg true (Function.update ρ j (ρ j + ps)) ∧
    e.Reg true (Function.update ρ j (ρ j + -ps))

theorem difference_reg {n : ℕ} {e : Ex (n + 2)} {ps : ℝ} {ρ : Fin (n + 2) → ℝ} (hp : ps ≠ 0) (h : RegAround e ps ρ)
    {j : Fin (n + 2)} (hj : j = 0 ∨ j = 1) : ((e.moved j ps - e.moved j (-ps)) / const (2 * ps)).Reg true ρ :=
  ⟨⟨moved_reg e j ps ρ (h j hj).1, moved_reg e j (-ps) ρ (h j hj).2⟩, trivial, mul_ne_zero two_ne_zero hp⟩

theorem difference_sem {n : ℕ} (e : Ex (n + 2)) (ps : ℝ) (j : Fin (n + 2)) :
    ((e.moved j ps - e.moved j (-ps)) / const (2 * ps)).sem = central e.sem ps j := by
  funext ρ
  show ((e.moved j ps).sem ρ - (e.moved j (-ps)).sem ρ) / (2 * ps) = _
  rw [moved_sem, moved_sem]
  rfl

/-- `jacobian_lens_equation(method="finitediff")` and the shear computed from it, at a pixel inside the grid: the
derivatives reported are those of the differences. -/
theorem C123_finite_difference {n : ℕ} (ax ay : Ex (n + 2)) (ps : ℝ) (hp : ps ≠ 0) (ρ : Fin (n + 2) → ℝ)
    (hx : RegAround ax ps ρ) (hy : RegAround ay ps ρ) :
    Exact (jacLensFinite ps ax ay).a00 (fun ρ => 1 - central ax.sem ps 0 ρ) ρ ∧
    Exact (jacLensFinite ps ax ay).a01 (fun ρ => 0 - central ax.sem ps 1 ρ) ρ ∧
    Exact (jacLensFinite ps ax ay).a10 (fun ρ => 0 - central ay.sem ps 0 ρ) ρ ∧
    Exact (jacLensFinite ps ax ay).a11 (fun ρ => 1 - central ay.sem ps 1 ρ) ρ ∧
    Exact (shear1 (jacLensFinite ps ax ay)) (fun ρ => (central ax.sem ps 0 ρ - central ay.sem ps 1 ρ) / 2) ρ ∧
    Exact (shear2 (jacLensFinite ps ax ay)) (fun ρ => central ax.sem ps 1 ρ) ρ := by
  have r00 := difference_reg hp hx (.inl rfl)
  have r01 := difference_reg hp hx (.inr rfl)
  have r10 := difference_reg hp hy (.inl rfl)
  have r11 := difference_reg hp hy (.inr rfl)
  have s00 : (jacDeflectionFinite ps ax ay).a00.sem = _ := difference_sem ax ps 0
  have s01 : (jacDeflectionFinite ps ax ay).a01.sem = _ := difference_sem ax ps 1
  have s10 : (jacDeflectionFinite ps ax ay).a10.sem = _ := difference_sem ay ps 0
  have s11 : (jacDeflectionFinite ps ax ay).a11.sem = _ := difference_sem ay ps 1
  have A : ∀ {c : ℝ} {e : Ex (n + 2)} {f : (Fin (n + 2) → ℝ) → ℝ}, e.sem = f →
      (const c - e : Ex (n + 2)).sem = fun ρ => c - f ρ := by
    rintro c e f rfl
    rfl
  refine ⟨.of_reg ⟨trivial, r00⟩ (A s00), .of_reg ⟨trivial, r01⟩ (A s01), .of_reg ⟨trivial, r10⟩ (A s10),
    .of_reg ⟨trivial, r11⟩ (A s11), .of_reg ⟨trivial, ⟨⟨⟨trivial, ⟨trivial, r00⟩, trivial, r11⟩, trivial⟩, trivial, r00⟩,
      ⟨⟨trivial, ⟨trivial, r00⟩, trivial, r11⟩, trivial⟩, trivial, r11⟩ ?_,
    .of_reg ⟨⟨⟨trivial, ⟨trivial, r00⟩, trivial, r11⟩, trivial⟩, trivial, r01⟩ ?_⟩
  · funext ρ
    have e0 := congrFun s00 ρ
    have e1 := congrFun s11 ρ
    show 0.5 * ((0.5 * ((1 - _) + (1 - _)) * 1 - (1 - _)) - (0.5 * ((1 - _) + (1 - _)) * 1 - (1 - _))) = _
    rw [e0, e1]
    norm_num
    ring
  · funext ρ
    have e0 := congrFun s01 ρ
    show 0.5 * ((1 - _) + (1 - _)) * 0 - (0 - _) = _
    rw [e0]
    ring

/-- External shear: the derivative of the finite difference shear with respect to `gamma_1` is one. -/
example (ρ : Fin 6 → ℝ) : (shear1 (jacLensFinite 1 extShearX extShearY)).fwd (XR.ofReals ρ) (XR.ofReals (Pi.single 4 1))
    = .fin 1 := by
  have h := (C123_finite_difference extShearX extShearY 1 one_ne_zero ρ
    (fun j _ => ⟨(extShear_reg _).1, (extShear_reg _).1⟩) (fun j _ => ⟨(extShear_reg _).2, (extShear_reg _).2⟩)).2.2.2.2.1
  have e : (fun ρ => (central extShearX.sem 1 0 ρ - central extShearY.sem 1 1 ρ) / 2) = fun ρ => ρ 4 := by
    funext w
    rw [extShear_sem.1, extShear_sem.2]
    simp [central, shearDeflection, translateRotate]
    ring
  rw [e] at h
  rw [h.fwd_eq (hasFDerivAt_apply (𝕜 := ℝ) (F' := fun _ : Fin 6 => ℝ) 4 ρ)]
  simp

/-! ### Shear by automatic differentiation -/

/-- The shear of a lens: what `shear` is for. -/
noncomputable def trueShear {n : ℕ} (fx fy : (Fin (n + 2) → ℝ) → ℝ) (ρ : Fin (n + 2) → ℝ) : ℝ × ℝ :=
  ((partials fx [0] ρ - partials fy [1] ρ) / 2, partials fx [1] ρ)

/-- `shear(method="autograd")`, the default: the values are right at every position where the deflection may be
differentiated, but every derivative of them, in either mode and with respect to anything, is zero. -/
theorem C123_shear_partial {n : ℕ} (ax ay : Ex (n + 2)) (ρ : Fin (n + 2) → ℝ) (hx : ax.Reg false ρ) (hy : ay.Reg false ρ) :
    (shear1 (jacLensAutograd ax ay)).val (XR.ofReals ρ) = .fin (trueShear ax.sem ay.sem ρ).1 ∧
    (shear2 (jacLensAutograd ax ay)).val (XR.ofReals ρ) = .fin (trueShear ax.sem ay.sem ρ).2 ∧
    (∀ d, (shear1 (jacLensAutograd ax ay)).fwd (XR.ofReals ρ) d = .fin 0 ∧
      (shear2 (jacLensAutograd ax ay)).fwd (XR.ofReals ρ) d = .fin 0) ∧
    ∀ g k, (shear1 (jacLensAutograd ax ay)).rev (XR.ofReals ρ) (.fin g) k = .fin 0 ∧
      (shear2 (jacLensAutograd ax ay)).rev (XR.ofReals ρ) (.fin g) k = .fin 0 := by
  have v00 : (ax.col 0).val (XR.ofReals ρ) = .fin (partials ax.sem [0] ρ) := by
    rw [val_reg (col_reg hx 0), col_sem hx]; rfl
  have v01 : (ax.col 1).val (XR.ofReals ρ) = .fin (partials ax.sem [1] ρ) := by
    rw [val_reg (col_reg hx 1), col_sem hx]; rfl
  have v11 : (ay.col 1).val (XR.ofReals ρ) = .fin (partials ay.sem [1] ρ) := by
    rw [val_reg (col_reg hy 1), col_sem hy]; rfl
  refine ⟨?_, ?_, fun d => ⟨?_, ?_⟩, fun g k => ⟨?_, ?_⟩⟩
  · simp only [shear1, jacLensAutograd, jacDeflection, Ex.add_eq, Ex.sub_eq, Ex.mul_eq, val, v00, v11, XR.fin_add,
      XR.fin_neg, XR.fin_mul, trueShear]
    norm_num
    ring
  · simp only [shear2, jacLensAutograd, jacDeflection, Ex.add_eq, Ex.sub_eq, Ex.mul_eq, val, v00, v01, v11, XR.fin_add,
      XR.fin_neg, XR.fin_mul, trueShear]
    norm_num
  · simp [shear1, jacLensAutograd, jacDeflection, Ex.add_eq, Ex.sub_eq, Ex.mul_eq, val, fwd, v00, v11, XR.fin_add,
      XR.fin_neg, XR.fin_mul]
  · simp [shear2, jacLensAutograd, jacDeflection, Ex.add_eq, Ex.sub_eq, Ex.mul_eq, val, fwd, v00, v11, XR.fin_add,
      XR.fin_neg, XR.fin_mul]
  · simp [shear1, jacLensAutograd, jacDeflection, Ex.add_eq, Ex.sub_eq, Ex.mul_eq, rev, XR.fin_add]
  · simp [shear2, jacLensAutograd, jacDeflection, Ex.add_eq, Ex.sub_eq, Ex.mul_eq, rev, XR.fin_add]

/-- Likewise the programs that differentiate the shear once more (`jacfwd` of `shear`): they return zero, whatever the
lens and whatever the variable. -/
theorem C123_fails_shear_columns {n : ℕ} (ax ay : Ex (n + 2)) (ρ : Fin (n + 2) → ℝ) (hx : ax.Reg false ρ)
    (hy : ay.Reg false ρ) (j : Fin (n + 2)) :
    ((shear1 (jacLensAutograd ax ay)).col j).val (XR.ofReals ρ) = .fin 0 ∧
    ((shear2 (jacLensAutograd ax ay)).col j).val (XR.ofReals ρ) = .fin 0 := by
  have hid : ∀ {e : Ex (n + 2)}, e.Reg false ρ → (e.ren id).val (XR.ofReals ρ) = .fin (e.sem ρ) := fun {e} h => by
    rw [val_reg ((ren_reg e id ρ).2 h), ren_sem]
    rfl
  have h0 := hid (col_reg hx 0)
  have h2 := hid (col_reg hy 1)
  simp only [col] at h0 h2
  constructor
  · simp [shear1, jacLensAutograd, jacDeflection, Ex.add_eq, Ex.sub_eq, Ex.mul_eq, col, tangent, ren, val,
      XR.fin_add, XR.fin_neg, XR.fin_mul, h0, h2]
  · simp [shear2, jacLensAutograd, jacDeflection, Ex.add_eq, Ex.sub_eq, Ex.mul_eq, col, tangent, ren, val,
      XR.fin_add, XR.fin_neg, XR.fin_mul, h0, h2]

/-- An external shear has shear `gamma_1, gamma_2`. -/
example : (shear1 (jacLensAutograd extShearX extShearY)).val (XR.ofReals ![1, 2, 0, 0, 0.3, 0.4]) = .fin 0.3 := by
  obtain ⟨h, -⟩ := C123_shear_partial extShearX extShearY ![1, 2, 0, 0, 0.3, 0.4] (extShear_reg _).1.weaken
    (extShear_reg _).2.weaken
  rw [h, trueShear, extShear_partials.1, extShear_partials.2.2.2]
  show XR.fin ((0.3 - -0.3) / 2) = _
  norm_num

/-- The claim: at every position where the deflection may be differentiated, `shear` and its derivatives are exact. -/
def C123_statement : Prop :=
  ∀ (n : ℕ) (ax ay : Ex (n + 2)) (ρ : Fin (n + 2) → ℝ), ax.Reg true ρ → ay.Reg true ρ →
    Exact (shear1 (jacLensAutograd ax ay)) (fun ρ => (trueShear ax.sem ay.sem ρ).1) ρ ∧
    Exact (shear2 (jacLensAutograd ax ay)) (fun ρ => (trueShear ax.sem ay.sem ρ).2) ρ

/-- For any lens the claim is wrong wherever the shear depends on anything. -/
theorem C123_fails_everywhere {n : ℕ} (ax ay : Ex (n + 2)) (ρ : Fin (n + 2) → ℝ) (hx : ax.Reg true ρ) (hy : ay.Reg true ρ)
    (h : fderiv ℝ (fun ρ => (trueShear ax.sem ay.sem ρ).1) ρ ≠ 0) :
    ¬Exact (shear1 (jacLensAutograd ax ay)) (fun ρ => (trueShear ax.sem ay.sem ρ).1) ρ := by
  rintro ⟨D, hD, -, hf, -⟩
  refine h ?_
  rw [hD.fderiv]
  ext d
  have h1 := hf d
  rw [((C123_shear_partial ax ay ρ hx.weaken hy.weaken).2.2.1 _).1] at h1
  injection h1 with h1
  exact h1.symm

theorem trueShear_ext : (fun ρ => (trueShear extShearX.sem extShearY.sem ρ).1) = fun ρ => ρ 4 := by
  funext w
  rw [trueShear, extShear_partials.1, extShear_partials.2.2.2]
  simp

/-- External shear, `gamma_1`. -/
theorem C123_fails : ¬C123_statement := by
  intro h
  refine C123_fails_everywhere extShearX extShearY 0 (extShear_reg _).1 (extShear_reg _).2 ?_
    (h 4 extShearX extShearY 0 (extShear_reg _).1 (extShear_reg _).2).1
  rw [trueShear_ext, (hasFDerivAt_apply (𝕜 := ℝ) (F' := fun _ : Fin 6 => ℝ) 4 0).fderiv]
  intro h1
  have := congrArg (fun D : (Fin 6 → ℝ) →L[ℝ] ℝ => D (Pi.single 4 1)) h1
  simp at this

theorem atPosition_val {n : ℕ} (x y : ℝ) (e : Ex (n + 2)) (ρ : Fin n → ℝ) :
    (atPosition x y e).val (XR.ofReals ρ)
      = e.val (XR.ofReals (Fin.cons (α := fun _ => ℝ) x (Fin.cons (α := fun _ => ℝ) y ρ))) := by
  simp only [atPosition, val, XR.ofReals_cons]

theorem atPosition_rev {n : ℕ} (x y : ℝ) (e : Ex (n + 2)) (ρ : Fin n → ℝ) (g : XR) (k : Fin n)
    (h : ∀ j, e.rev (XR.ofReals (Fin.cons (α := fun _ => ℝ) x (Fin.cons (α := fun _ => ℝ) y ρ))) g j = .fin 0) :
    (atPosition x y e).rev (XR.ofReals ρ) g k = .fin 0 := by
  simp only [atPosition, rev, val, XR.ofReals_cons, h, XR.fin_add, add_zero]

/-- Fitting the parameters of any lens to measured shears by least squares: the gradient of the loss is zero whatever the
parameters and the data, so gradient descent never moves. -/
theorem C123_fails_fit {n : ℕ} (ax ay : Ex (n + 2)) (ρ : Fin n → ℝ) (data : List ((ℝ × ℝ) × ℝ × ℝ))
    (h : ∀ d ∈ data, ax.Reg false (Fin.cons (α := fun _ => ℝ) d.1.1 (Fin.cons (α := fun _ => ℝ) d.1.2 ρ)) ∧
      ay.Reg false (Fin.cons (α := fun _ => ℝ) d.1.1 (Fin.cons (α := fun _ => ℝ) d.1.2 ρ))) (g : ℝ) (k : Fin n) :
    (shearLoss (jacLensAutograd ax ay) data).rev (XR.ofReals ρ) (.fin g) k = .fin 0 := by
  induction data with
  | nil => rfl
  | cons d l ih =>
    obtain ⟨hx, hy⟩ := h d (by simp)
    obtain ⟨v1, v2, -, hr⟩ := C123_shear_partial ax ay _ hx hy
    have ih' := ih fun d hd => h d (by simp [hd])
    simp only [shearLoss, Ex.add_eq, Ex.sub_eq, rev, val, atPosition_val, v1, v2, XR.fin_neg, XR.fin_add, XR.lift,
      UnOp.coef, XR.fin_mul, ih']
    rw [atPosition_rev _ _ _ _ _ _ fun j => (hr _ j).1, atPosition_rev _ _ _ _ _ _ fun j => (hr _ j).2]
    simp [XR.fin_add]

/-- The value of the loss is what it should be. -/
theorem C123_loss_value {n : ℕ} (ax ay : Ex (n + 2)) (ρ : Fin n → ℝ) (data : List ((ℝ × ℝ) × ℝ × ℝ))
    (h : ∀ d ∈ data, ax.Reg false (Fin.cons (α := fun _ => ℝ) d.1.1 (Fin.cons (α := fun _ => ℝ) d.1.2 ρ)) ∧
      ay.Reg false (Fin.cons (α := fun _ => ℝ) d.1.1 (Fin.cons (α := fun _ => ℝ) d.1.2 ρ))) :
    (shearLoss (jacLensAutograd ax ay) data).val (XR.ofReals ρ) = .fin (data.map fun d =>
      ((trueShear ax.sem ay.sem (Fin.cons (α := fun _ => ℝ) d.1.1 (Fin.cons (α := fun _ => ℝ) d.1.2 ρ))).1 - d.2.1) ^ 2 +
      ((trueShear ax.sem ay.sem (Fin.cons (α := fun _ => ℝ) d.1.1 (Fin.cons (α := fun _ => ℝ) d.1.2 ρ))).2 - d.2.2) ^ 2).sum := by
  induction data with
  | nil => rfl
  | cons d l ih =>
    obtain ⟨hx, hy⟩ := h d (by simp)
    obtain ⟨v1, v2, -, -⟩ := C123_shear_partial ax ay _ hx hy
    have ih' := ih fun d hd => h d (by simp [hd])
    simp only [shearLoss, Ex.add_eq, Ex.sub_eq, val, atPosition_val, v1, v2, XR.fin_neg, XR.fin_add, XR.lift, UnOp.val, ih',
      List.map_cons, List.sum_cons, ← sub_eq_add_neg]

/-- Two measurements and an external shear with `gamma_1 = gamma_2 = 0`: the loss is 1/8 with zero gradient. -/
example : (shearLoss (jacLensAutograd extShearX extShearY) [((1, 0), 1 / 4, 0), ((0, 1), 1 / 4, 0)]).val (XR.ofReals ![0, 0, 0, 0])
      = .fin (1 / 8) ∧
    (shearLoss (jacLensAutograd extShearX extShearY) [((1, 0), 1 / 4, 0), ((0, 1), 1 / 4, 0)]).rev (XR.ofReals ![0, 0, 0, 0])
      (.fin 1) 2 = .fin 0 := by
  refine ⟨?_, C123_fails_fit _ _ _ _ (fun d _ => ⟨(extShear_reg _).1.weaken, (extShear_reg _).2.weaken⟩) 1 2⟩
  have a := fun x y => C123_shear_partial extShearX extShearY
    (Fin.cons (α := fun _ => ℝ) x (Fin.cons (α := fun _ => ℝ) y ![0, 0, 0, 0])) (extShear_reg _).1.weaken (extShear_reg _).2.weaken
  have a1 : ∀ x y, (shear1 (jacLensAutograd extShearX extShearY)).val
      (XR.ofReals (Fin.cons (α := fun _ => ℝ) x (Fin.cons (α := fun _ => ℝ) y ![0, 0, 0, 0]))) = .fin 0 := by
    intro x y
    rw [(a x y).1, trueShear, extShear_partials.1, extShear_partials.2.2.2]
    show XR.fin ((0 - -0) / 2) = _
    norm_num
  have a2 : ∀ x y, (shear2 (jacLensAutograd extShearX extShearY)).val
      (XR.ofReals (Fin.cons (α := fun _ => ℝ) x (Fin.cons (α := fun _ => ℝ) y ![0, 0, 0, 0]))) = .fin 0 := by
    intro x y
    rw [(a x y).2.1, trueShear, extShear_partials.2.1]
    rfl
  simp only [shearLoss, Ex.add_eq, Ex.sub_eq, val, atPosition_val, a1, a2, XR.fin_neg, XR.fin_add, XR.lift, UnOp.val]
  norm_num

/-! ### Lenses -/

/-- Singular isothermal sphere: derivatives of any order of the deflection and the potential. -/
theorem C123_sis (x y x0 y0 s Rein : ℝ) (h : OffCentre x y x0 y0) (hs : √((x - x0) ^ 2 + (y - y0) ^ 2) + s ≠ 0)
    (l : List (Fin 6)) :
    Exact (cols sisX l) (partials (fun v => (sisDeflection (v 2) (v 3) (v 5) (v 4) (v 0) (v 1)).1) l)
      ![x, y, x0, y0, s, Rein] ∧
    Exact (cols sisY l) (partials (fun v => (sisDeflection (v 2) (v 3) (v 5) (v 4) (v 0) (v 1)).2) l)
      ![x, y, x0, y0, s, Rein] ∧
    Exact (cols sisPot l) (partials (fun v => sisPotential (v 2) (v 3) (v 5) (v 4) (v 0) (v 1)) l)
      ![x, y, x0, y0, s, Rein] :=
  have rx : sisX.Reg true ![x, y, x0, y0, s, Rein] := centred_reg h ⟨⟨trivial, trivial⟩, trivial, hs⟩
  have ry : sisY.Reg true ![x, y, x0, y0, s, Rein] := centred_reg h ⟨⟨trivial, trivial⟩, trivial, hs⟩
  have rp : sisPot.Reg true ![x, y, x0, y0, s, Rein] := centred_reg h ⟨trivial, trivial⟩
  ⟨C123_any_order sisX _ rx l, C123_any_order sisY _ ry l, C123_any_order sisPot _ rp l⟩

/-- The derivative with respect to `Rein` of the Jacobian entry `d ax / dy`. -/
example : Exact (cols sisX [5, 1]) (partials (fun v => (sisDeflection (v 2) (v 3) (v 5) (v 4) (v 0) (v 1)).1) [5, 1])
    ![3, 4, 0, 0, 0, 1] :=
  (C123_sis 3 4 0 0 0 1 (by norm_num [OffCentre]) (by norm_num) [5, 1]).1

/-- Point mass. -/
theorem C123_point (x y x0 y0 s Rein : ℝ) (h : OffCentre x y x0 y0) (hs : 0 < √((x - x0) ^ 2 + (y - y0) ^ 2) + s)
    (l : List (Fin 6)) :
    Exact (cols pointX l) (partials (fun v => (pointDeflection (v 2) (v 3) (v 5) (v 4) (v 0) (v 1)).1) l)
      ![x, y, x0, y0, s, Rein] ∧
    Exact (cols pointY l) (partials (fun v => (pointDeflection (v 2) (v 3) (v 5) (v 4) (v 0) (v 1)).2) l)
      ![x, y, x0, y0, s, Rein] ∧
    Exact (cols pointPot l) (partials (fun v => pointPotential (v 2) (v 3) (v 5) (v 4) (v 0) (v 1)) l)
      ![x, y, x0, y0, s, Rein] :=
  have rx : pointX.Reg true ![x, y, x0, y0, s, Rein] :=
    centred_reg h ⟨⟨trivial, trivial, trivial⟩, ⟨trivial, trivial⟩, pow_ne_zero 2 hs.ne'⟩
  have ry : pointY.Reg true ![x, y, x0, y0, s, Rein] :=
    centred_reg h ⟨⟨trivial, trivial, trivial⟩, ⟨trivial, trivial⟩, pow_ne_zero 2 hs.ne'⟩
  have rp : pointPot.Reg true ![x, y, x0, y0, s, Rein] := centred_reg h ⟨⟨trivial, trivial⟩, trivial, hs⟩
  ⟨C123_any_order pointX _ rx l, C123_any_order pointY _ ry l, C123_any_order pointPot _ rp l⟩

example : Exact (cols pointX [0, 1, 5]) (partials (fun v => (pointDeflection (v 2) (v 3) (v 5) (v 4) (v 0) (v 1)).1) [0, 1, 5])
    ![3, 4, 0, 0, 0, 1] :=
  (C123_point 3 4 0 0 0 1 (by norm_num [OffCentre]) (by positivity) [0, 1, 5]).1

/-- Singular isothermal ellipsoid. -/
theorem C123_sie (x y x0 y0 s q phi Rein : ℝ) (hq0 : 0 < q) (hq1 : q < 1) (hs : 0 ≤ s)
    (h : OffCentre x y x0 y0 ∨ 0 < s) (l : List (Fin 8)) :
    Exact (cols sieX l) (partials (fun v => (sieDeflection (v 2) (v 3) (v 5) (v 6) (v 7) (v 4) (v 0) (v 1)).1) l)
      ![x, y, x0, y0, s, q, phi, Rein] ∧
    Exact (cols sieY l) (partials (fun v => (sieDeflection (v 2) (v 3) (v 5) (v 6) (v 7) (v 4) (v 0) (v 1)).2) l)
      ![x, y, x0, y0, s, q, phi, Rein] := by
  obtain ⟨rx, ry⟩ := sie_reg x y x0 y0 s q phi Rein hq0 hq1 hs h
  rw [← sieX_sem, ← sieY_sem]
  exact ⟨C123_any_order sieX _ rx l, C123_any_order sieY _ ry l⟩

/-- How the Jacobian changes with the axis ratio, at the centre of a softened lens. -/
example : Exact (cols sieX [5, 0]) (partials (fun v => (sieDeflection (v 2) (v 3) (v 5) (v 6) (v 7) (v 4) (v 0) (v 1)).1) [5, 0])
    ![0, 0, 0, 0, 1 / 10, 1 / 2, 1, 1] :=
  (C123_sie 0 0 0 0 (1 / 10) (1 / 2) 1 1 (by norm_num) (by norm_num) (by norm_num) (.inr (by norm_num)) [5, 0]).1

/-- NFW. -/
theorem C123_nfw (x y x0 y0 s mass c rhoc d_l Delta w : ℝ) (h : OffCentre x y x0 y0) (hs : 0 ≤ s) (hm : 0 < mass)
    (hc : 0 < c) (hr : 0 < rhoc) (hd : 0 < d_l) (hD : 0 < Delta)
    (hR : NfwRadius (d_l * (√((x - x0) ^ 2 + (y - y0) ^ 2) + s) * arcsecToRad / nfwScaleRadius rhoc mass c Delta))
    (l : List (Fin 11)) :
    Exact (cols nfwX l) (partials (fun v => ((nfwAt v).physicalDeflection (v 0) (v 1)).1) l)
      ![x, y, x0, y0, s, mass, c, rhoc, d_l, Delta, w] ∧
    Exact (cols nfwY l) (partials (fun v => ((nfwAt v).physicalDeflection (v 0) (v 1)).2) l)
      ![x, y, x0, y0, s, mass, c, rhoc, d_l, Delta, w] := by
  obtain ⟨rx, ry⟩ := nfw_reg x y x0 y0 s mass c rhoc d_l Delta w h hs hm hc hr hd hD hR
  rw [← nfwX_sem, ← nfwY_sem]
  exact ⟨C123_any_order nfwX _ rx l, C123_any_order nfwY _ ry l⟩

/-- At twice the scale radius, second derivative in the concentration. -/
example : ∃ d_l, Exact (cols nfwX [6, 6]) (partials (fun v => ((nfwAt v).physicalDeflection (v 0) (v 1)).1) [6, 6])
    ![1, 0, 0, 0, 0, 1, 5, 1, d_l, 200, 1] := by
  have ha := arcsecToRad_pos
  have hr : 0 < nfwScaleRadius 1 1 5 200 := by
    unfold nfwScaleRadius
    positivity
  have e : 2 * nfwScaleRadius 1 1 5 200 / arcsecToRad * (√((1 - 0) ^ 2 + (0 - 0) ^ 2) + 0) * arcsecToRad /
      nfwScaleRadius 1 1 5 200 = 2 := by
    have : √((1 - 0) ^ 2 + (0 - 0) ^ 2 : ℝ) = 1 := by norm_num
    rw [this]
    field_simp
    ring
  refine ⟨2 * nfwScaleRadius 1 1 5 200 / arcsecToRad, (C123_nfw 1 0 0 0 0 1 5 1 _ 200 1 (by norm_num [OffCentre]) le_rfl
    one_pos (by norm_num) one_pos (by positivity) (by norm_num) ?_ [6, 6]).1⟩
  rw [e]
  constructor <;> norm_num

/-- Pseudo-Jaffe. -/
theorem C123_pseudo_jaffe (x y x0 y0 s mass Rc Rs d_l sigmacr : ℝ) (h : OffCentre x y x0 y0)
    (hs : √((x - x0) ^ 2 + (y - y0) ^ 2) + s ≠ 0) (hc : 0 < Rc) (hcs : Rc < Rs) (hd : 0 < d_l) (hsig : 0 < sigmacr)
    (l : List (Fin 10)) :
    Exact (cols pjX l) (partials (fun v => ((pjAt v).deflection (v 0) (v 1)).1) l)
      ![x, y, x0, y0, s, mass, Rc, Rs, d_l, sigmacr] ∧
    Exact (cols pjY l) (partials (fun v => ((pjAt v).deflection (v 0) (v 1)).2) l)
      ![x, y, x0, y0, s, mass, Rc, Rs, d_l, sigmacr] := by
  obtain ⟨rx, ry⟩ := pj_reg x y x0 y0 s mass Rc Rs d_l sigmacr h hs hc hcs hd hsig
  rw [← pjX_sem, ← pjY_sem]
  exact ⟨C123_any_order pjX _ rx l, C123_any_order pjY _ ry l⟩

example : Exact (cols pjX [7, 0]) (partials (fun v => ((pjAt v).deflection (v 0) (v 1)).1) [7, 0])
    ![3, 4, 0, 0, 0, 1, 1, 2, 1, 1] :=
  (C123_pseudo_jaffe 3 4 0 0 0 1 1 2 1 1 (by norm_num [OffCentre]) (by norm_num) one_pos one_lt_two one_pos one_pos
    [7, 0]).1

end Caustics

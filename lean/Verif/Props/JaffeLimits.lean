import Verif.Props.FarField
import Verif.Props.Softening
import Verif.Model.PJaffeEnds
import Mathlib.Analysis.Calculus.Deriv.Slope

/-!
C130: the pseudo-Jaffe lens at the ends of its parameter range.

The statements use one expression that never divides by `Rs - Rc`:
the fraction of the mass inside the angle `R` is `1 - (Rc + Rs)/(√(Rc²+R²) + √(Rs²+R²))`.
-/

namespace Caustics
open Real Filter Topology

/-- The lens with other radii. -/
def PJaffe.radii (L : PJaffe) (p : ℝ × ℝ) : PJaffe := { L with Rc := p.1, Rs := p.2 }

/-- The radii at which the formulas of the code are numbers. -/
def pjGood : Set (ℝ × ℝ) := {p | 0 < p.1 ∧ 0 < p.2 ∧ p.1 ≠ p.2}

/-- The distances and the critical surface density belong together; nothing about the radii. -/
structure PJaffe.Far (L : PJaffe) : Prop where
  G : 0 < L.Gc2
  d_l : 0 < L.d_l
  d_s : 0 < L.d_s
  d_ls : 0 < L.d_ls
  sigmacr : L.sigmacr = L.d_s / (4 * π * L.Gc2 * L.d_l * L.d_ls)

theorem PJaffe.Far.ok {L : PJaffe} (h : L.Far) {p : ℝ × ℝ} (hp : p ∈ pjGood) : (L.radii p).Ok :=
  ⟨h.G, hp.1, hp.2.1, hp.2.2, h.d_l, h.d_s, h.d_ls, h.sigmacr⟩

theorem PJaffe.Far.sig {L : PJaffe} (h : L.Far) : 0 < L.sigmacr := by
  have h3 := h.d_l; have h4 := h.d_s; have h5 := h.d_ls; have h6 := h.G
  rw [h.sigmacr]; positivity

theorem pjMass_form {mass Rc Rs w : ℝ} (hRc : 0 < Rc) (hRs : 0 < Rs) (hne : Rc ≠ Rs) :
    pjMassEnclosed w mass Rc Rs 0 =
      mass * (1 - (Rc + Rs) / (√(Rc ^ 2 + w ^ 2) + √(Rs ^ 2 + w ^ 2))) := by
  have hd : Rs - Rc ≠ 0 := sub_ne_zero.mpr hne.symm
  have p : 0 < √(Rc ^ 2 + w ^ 2) := sqrt_pos.mpr (by positivity)
  have q : 0 < √(Rs ^ 2 + w ^ 2) := sqrt_pos.mpr (by positivity)
  have ps := sq_sqrt (show 0 ≤ Rc ^ 2 + w ^ 2 by positivity)
  have qs := sq_sqrt (show 0 ≤ Rs ^ 2 + w ^ 2 by positivity)
  simp only [pjMassEnclosed, add_zero]
  generalize √(Rc ^ 2 + w ^ 2) = a at *
  generalize √(Rs ^ 2 + w ^ 2) = b at *
  have hab : a + b ≠ 0 := by positivity
  field_simp
  have : a ^ 2 - b ^ 2 = Rc ^ 2 - Rs ^ 2 := by rw [ps, qs]; ring
  linear_combination mass * this

/-- The fraction of the mass inside the angle `R`, without a division by `Rs - Rc`. -/
noncomputable def pjFrac (R : ℝ) (p : ℝ × ℝ) : ℝ :=
  1 - (p.1 + p.2) / (√(p.1 ^ 2 + R ^ 2) + √(p.2 ^ 2 + R ^ 2))

theorem pjFrac_continuous {R : ℝ} (hR : 0 < R) : Continuous (pjFrac R) := by
  unfold pjFrac
  refine continuous_const.sub (Continuous.div (by fun_prop) (by fun_prop) fun p => ?_)
  have : 0 < √(p.1 ^ 2 + R ^ 2) := sqrt_pos.mpr (by positivity)
  positivity

/-! ### The order of the two radii -/

/-- Exchanging `Rc` and `Rs` changes nothing: the deflection, the convergence, the potential and the
mass inside a radius are the same, whatever the numbers. -/
theorem C130_swap (L : PJaffe) (x y : ℝ) :
    let L' := { L with Rc := L.Rs, Rs := L.Rc }
    L'.deflection x y = L.deflection x y ∧ L'.convergence x y = L.convergence x y ∧
    L'.potential x y = L.potential x y ∧
    ∀ r s, pjMassEnclosed r L.mass L.Rs L.Rc s = pjMassEnclosed r L.mass L.Rc L.Rs s := by
  have key : ∀ a b u v : ℝ, a / (u - v) * b = a / (v - u) * (-b) := by
    intro a b u v
    rw [← neg_sub v u, div_neg]; ring
  have hk : ∀ c, pjKappa0 L.mass L.Rs L.Rc L.d_l c = pjKappa0 L.mass L.Rc L.Rs L.d_l c := by
    intro c; simp only [pjKappa0]; congr 1; ring
  refine ⟨?_, ?_, ?_, ?_⟩
  · simp only [PJaffe.deflection, hk]
    rw [key]
    simp only [div_div, neg_sub, mul_right_comm _ L.Rs L.Rc]
  · simp only [PJaffe.convergence, hk]
    rw [key, neg_sub, mul_right_comm _ L.Rs L.Rc]
  · simp only [PJaffe.potential, hk]
    rw [neg_mul, key, mul_right_comm _ L.Rs L.Rc]
    ring
  · intro r s
    simp only [pjMassEnclosed]
    rw [← neg_div_neg_eq]
    congr 1 <;> ring

/-! ### Where the formulas are not numbers -/

/-- What the declared ranges of the parameters promise: `mass`, `Rc` and `Rs` may be any numbers from 0
up (lenses/pseudo_jaffe.py:160-162), so a lens with such radii has a deflection, a convergence and a
potential away from its centre and a mass inside every radius. -/
def C130_statement : Prop :=
  ∀ L : PJaffe, L.Far → L.s = 0 → 0 ≤ L.mass → 0 ≤ L.Rc → 0 ≤ L.Rs → ∀ x y, (x, y) ≠ (L.x0, L.y0) →
    (L.deflectionOpt x y).isSome ∧ (L.convergenceOpt x y).isSome ∧ (L.potentialOpt x y).isSome ∧
    ∀ r, 0 ≤ r → (pjMassEnclosedOpt r L.mass L.Rc L.Rs 0).isSome

theorem pj_bind_none {α β : Type} (a : Option α) : (a.bind fun _ => (none : Option β)) = none := by
  cases a <;> rfl

/-- With equal radii none of the four methods returns a number: each divides by `Rs - Rc`. -/
theorem C130_fails_equal (L : PJaffe) (h : L.Rc = L.Rs) (x y r s : ℝ) :
    L.deflectionOpt x y = none ∧ L.convergenceOpt x y = none ∧ L.potentialOpt x y = none ∧
    pjMassEnclosedOpt r L.mass L.Rc L.Rs s = none := by
  refine ⟨?_, ?_, ?_, ?_⟩ <;>
  · simp only [PJaffe.deflectionOpt, PJaffe.convergenceOpt, PJaffe.potentialOpt, pjMassEnclosedOpt, h,
      sub_self, divOpt_zero, Option.bind_eq_bind, Option.bind_none, pj_bind_none]

/-- With a radius 0 the deflection, the convergence and the potential are not numbers anywhere:
the central convergence divides by `Rc · Rs`, and the deflection by each radius. -/
theorem C130_fails_zero (L : PJaffe) (h : L.Rc = 0 ∨ L.Rs = 0) (x y : ℝ) :
    L.deflectionOpt x y = none ∧ L.convergenceOpt x y = none ∧ L.potentialOpt x y = none := by
  have hk : ∀ c, pjKappa0Opt L.mass L.Rc L.Rs L.d_l c = none := by
    intro c
    unfold pjKappa0Opt
    rcases h with h | h <;> rw [h] <;> simp [divOpt]
  refine ⟨?_, ?_, ?_⟩
  · rcases h with h | h <;>
    simp only [PJaffe.deflectionOpt, h, divOpt_zero, Option.bind_eq_bind, Option.bind_none, pj_bind_none]
  · simp only [PJaffe.convergenceOpt, hk, Option.bind_eq_bind, Option.bind_none]
  · simp only [PJaffe.potentialOpt, hk, Option.bind_eq_bind, Option.bind_none]

/-- The mass inside a radius is a number for every pair of different radii, 0 included. -/
theorem C130_mass_partial (mass Rc Rs r : ℝ) (h : Rc ≠ Rs) :
    pjMassEnclosedOpt r mass Rc Rs 0 = some (pjMassEnclosed r mass Rc Rs 0) := by
  simp only [pjMassEnclosedOpt, pjMassEnclosed]
  rw [sqrtOpt_eq (by positivity), sqrtOpt_eq (by positivity)]
  simp only [Option.bind_eq_bind, Option.bind_some]
  rw [divOpt_eq (sub_ne_zero.2 h.symm)]

/-- For positive and different radii all four are numbers, the ones of the unchecked formulas. -/
theorem C130_numbers_partial (L : PJaffe) (hL : L.Ok) (hs : 0 ≤ L.s) (x y : ℝ)
    (hxy : 0 < √((x - L.x0) ^ 2 + (y - L.y0) ^ 2) + L.s) :
    L.deflectionOpt x y = some (L.deflection x y) ∧ L.convergenceOpt x y = some (L.convergence x y) ∧
    L.potentialOpt x y = some (L.potential x y) ∧
    ∀ r, pjMassEnclosedOpt r L.mass L.Rc L.Rs 0 = some (pjMassEnclosed r L.mass L.Rc L.Rs 0) := by
  have ha := arcsecToRad_pos
  have h1 := hL.Rc; have h2 := hL.Rs; have h3 := hL.d_l; have h4 := hL.d_s; have h5 := hL.d_ls
  have h6 := hL.G
  have hpi := pi_pos
  have hsc : 0 < L.sigmacr := by rw [hL.sigmacr]; positivity
  have hne := sub_ne_zero.2 hL.ne.symm
  refine ⟨L.deflectionOpt_eq hL hxy, ?_, ?_,
    fun r => C130_mass_partial _ _ _ _ hL.ne⟩
  · have p1 : 0 < √(L.Rc ^ 2 + ((x - L.x0) ^ 2 + (y - L.y0) ^ 2 + L.s)) := sqrt_pos.mpr (by positivity)
    have p2 : 0 < √(L.Rs ^ 2 + ((x - L.x0) ^ 2 + (y - L.y0) ^ 2 + L.s)) := sqrt_pos.mpr (by positivity)
    simp only [PJaffe.convergenceOpt, PJaffe.convergence, translateRotate, pjKappa0, pjKappa0Opt]
    rw [divOpt_eq (by positivity)]
    simp only [Option.bind_eq_bind, Option.bind_some]
    rw [divOpt_eq hne, sqrtOpt_eq (by positivity), sqrtOpt_eq (by positivity)]
    simp only [Option.bind_some]
    rw [divOpt_eq p1.ne', divOpt_eq p2.ne']
    rfl
  · have p1 : 0 < √(L.Rc ^ 2 + ((x - L.x0) ^ 2 + (y - L.y0) ^ 2 + L.s)) := sqrt_pos.mpr (by positivity)
    have p2 : 0 < √(L.Rs ^ 2 + ((x - L.x0) ^ 2 + (y - L.y0) ^ 2 + L.s)) := sqrt_pos.mpr (by positivity)
    simp only [PJaffe.potentialOpt, PJaffe.potential, translateRotate, pjKappa0, pjKappa0Opt]
    rw [divOpt_eq (by positivity)]
    simp only [Option.bind_eq_bind, Option.bind_some]
    rw [divOpt_eq (by positivity)]
    simp only [Option.bind_some]
    rw [divOpt_eq hne, sqrtOpt_eq (by positivity), sqrtOpt_eq (by positivity)]
    simp only [Option.bind_some]
    rw [logOpt, if_pos (by positivity), logOpt, if_pos (by positivity)]
    rfl

/-- The promise is broken at both kinds of ends: by a lens with `Rc = Rs = 1`, and by one with
`Rc = 0`, `Rs = 1`. -/
theorem C130_fails : ¬ C130_statement ∧
    (∃ L : PJaffe, L.Far ∧ L.s = 0 ∧ 0 < L.mass ∧ 0 < L.Rc ∧ L.Rc = L.Rs ∧ L.deflectionOpt 1 0 = none ∧
      (L.x0, L.y0) = (0, 0)) ∧
    (∃ L : PJaffe, L.Far ∧ L.s = 0 ∧ 0 < L.mass ∧ L.Rc = 0 ∧ 0 < L.Rs ∧ L.deflectionOpt 1 0 = none ∧
      (L.x0, L.y0) = (0, 0)) := by
  have far : ∀ p, (pjEx.radii p).Far := fun p =>
    ⟨by norm_num [PJaffe.radii, pjEx], by norm_num [PJaffe.radii, pjEx], by norm_num [PJaffe.radii, pjEx],
      by norm_num [PJaffe.radii, pjEx], by norm_num [PJaffe.radii, pjEx]⟩
  refine ⟨fun h => ?_, ⟨pjEx.radii (1, 1), far _, rfl, by norm_num [PJaffe.radii, pjEx], by norm_num [PJaffe.radii],
    rfl, (C130_fails_equal _ rfl 1 0 0 0).1, rfl⟩, ⟨pjEx.radii (0, 1), far _, rfl, by norm_num [PJaffe.radii, pjEx],
    rfl, by norm_num [PJaffe.radii], (C130_fails_zero _ (Or.inl rfl) 1 0).1, rfl⟩⟩
  have := (h (pjEx.radii (1, 1)) (far _) rfl (by norm_num [PJaffe.radii, pjEx]) (by norm_num [PJaffe.radii])
    (by norm_num [PJaffe.radii]) 1 0 (by simp [PJaffe.radii, pjEx])).1
  rw [(C130_fails_equal (pjEx.radii (1, 1)) rfl 1 0 0 0).1] at this
  simp at this

/-! ### The limits that the formulas have there -/

theorem PJaffe.deflection_frac {L : PJaffe} (hL : L.Far) (hs : L.s = 0) {p : ℝ × ℝ} (hp : p ∈ pjGood)
    {x y : ℝ} (hxy : (x, y) ≠ (L.x0, L.y0)) :
    (L.radii p).deflection x y =
      let R := √((x - L.x0) ^ 2 + (y - L.y0) ^ 2)
      (L.mass * pjFrac R p / (π * L.sigmacr * (L.d_l * arcsecToRad) ^ 2 * R) * (x - L.x0) / R,
       L.mass * pjFrac R p / (π * L.sigmacr * (L.d_l * arcsecToRad) ^ 2 * R) * (y - L.y0) / R) := by
  rw [C54_pseudo_jaffe_mass (L.radii p) (hL.ok hp) hs x y hxy]
  simp only [PJaffe.radii]
  rw [pjMass_form hp.1 hp.2.1 hp.2.2]
  rfl

/-- As the radii approach any pair of numbers from 0 up, equal or not, the deflection away from the
centre tends to a vector towards the centre: that of the mass fraction `pjFrac`, which is a number
for every pair of radii.  At pairs of different positive radii this is continuity in the parameters. -/
theorem C130_deflection_limit (L : PJaffe) (hL : L.Far) (hs : L.s = 0) (q : ℝ × ℝ) (x y : ℝ)
    (hxy : (x, y) ≠ (L.x0, L.y0)) :
    let R := √((x - L.x0) ^ 2 + (y - L.y0) ^ 2)
    let A := L.mass * (1 - (q.1 + q.2) / (√(q.1 ^ 2 + R ^ 2) + √(q.2 ^ 2 + R ^ 2)))
      / (π * L.sigmacr * (L.d_l * arcsecToRad) ^ 2 * R)
    Tendsto (fun p => (L.radii p).deflection x y) (𝓝[pjGood] q)
      (𝓝 (A * (x - L.x0) / R, A * (y - L.y0) / R)) := by
  intro R A
  have hR : 0 < R := radius_pos (sub_ne_zero_or hxy)
  have hc : Tendsto (pjFrac R) (𝓝[pjGood] q) (𝓝 (pjFrac R q)) :=
    (pjFrac_continuous hR).continuousWithinAt
  have h : Tendsto (fun p => ((L.mass * pjFrac R p / (π * L.sigmacr * (L.d_l * arcsecToRad) ^ 2 * R)
      * (x - L.x0) / R, L.mass * pjFrac R p / (π * L.sigmacr * (L.d_l * arcsecToRad) ^ 2 * R)
      * (y - L.y0) / R) : ℝ × ℝ)) (𝓝[pjGood] q) (𝓝 (A * (x - L.x0) / R, A * (y - L.y0) / R)) := by
    refine Tendsto.prodMk_nhds ?_ ?_ <;>
    · refine Tendsto.div_const (Tendsto.mul_const _ (Tendsto.div_const (Tendsto.const_mul _ ?_) _)) _
      exact hc
  refine h.congr' ?_
  filter_upwards [self_mem_nhdsWithin] with p hp
  rw [PJaffe.deflection_frac hL hs hp hxy]

/-- Equal radii `a`: the limit of the deflection is that of the mass fraction `1 - a/√(a² + R²)`
(the lens of a Kuzmin disc), a finite vector for every position other than the centre. -/
theorem C130_equal_limit (L : PJaffe) (hL : L.Far) (hs : L.s = 0) (a : ℝ) (x y : ℝ)
    (hxy : (x, y) ≠ (L.x0, L.y0)) :
    let R := √((x - L.x0) ^ 2 + (y - L.y0) ^ 2)
    let A := L.mass * (1 - a / √(a ^ 2 + R ^ 2)) / (π * L.sigmacr * (L.d_l * arcsecToRad) ^ 2 * R)
    Tendsto (fun p => (L.radii p).deflection x y) (𝓝[pjGood] (a, a))
      (𝓝 (A * (x - L.x0) / R, A * (y - L.y0) / R)) := by
  intro R A
  have hR : 0 < R := radius_pos (sub_ne_zero_or hxy)
  have h := C130_deflection_limit L hL hs (a, a) x y hxy
  have e : (a + a) / (√(a ^ 2 + R ^ 2) + √(a ^ 2 + R ^ 2)) = a / √(a ^ 2 + R ^ 2) := by
    rw [← two_mul, ← two_mul, mul_div_mul_left _ _ two_ne_zero]
  simp only [] at h
  change Tendsto _ _ (𝓝 (L.mass * (1 - (a + a) / (√(a ^ 2 + R ^ 2) + √(a ^ 2 + R ^ 2))) / _ * _ / R,
    L.mass * (1 - (a + a) / (√(a ^ 2 + R ^ 2) + √(a ^ 2 + R ^ 2))) / _ * _ / R)) at h
  rw [e] at h
  exact h

/-- Both radii to 0: the `Point` lens of the whole mass. -/
theorem C130_point_limit (L : PJaffe) (hL : L.Far) (hs : L.s = 0) (hm : 0 ≤ L.mass) (x y : ℝ)
    (hxy : (x, y) ≠ (L.x0, L.y0)) :
    Tendsto (fun p => (L.radii p).deflection x y) (𝓝[pjGood] (0, 0))
      (𝓝 (pointDeflection L.x0 L.y0 (massToReinPoint L.Gc2 L.mass L.d_ls L.d_l L.d_s) 0 x y)) := by
  have hR := radius_pos (sub_ne_zero_or hxy)
  have h := C130_equal_limit L hL hs 0 x y hxy
  have hdl := hL.d_l; have hds := hL.d_s; have hdls := hL.d_ls; have hG := hL.G
  have hr := radToArcsec_pos
  have hpi := pi_pos
  convert h using 2
  rw [pointDeflection_mass hL.G hm hL.d_ls hL.d_l hL.d_s]
  simp only [hL.sigmacr, arcsecToRad]
  generalize √((x - L.x0) ^ 2 + (y - L.y0) ^ 2) = R at *
  refine Prod.ext ?_ ?_ <;> · simp only [zero_div, sub_zero]; field_simp

/-- The convergence tends to a number as well. -/
theorem C130_convergence_limit (L : PJaffe) (hL : L.Far) (hs : L.s = 0) (q : ℝ × ℝ)
    (x y : ℝ) (hxy : (x, y) ≠ (L.x0, L.y0)) :
    let R := √((x - L.x0) ^ 2 + (y - L.y0) ^ 2)
    let u := √(q.1 ^ 2 + R ^ 2)
    let v := √(q.2 ^ 2 + R ^ 2)
    Tendsto (fun p => (L.radii p).convergence x y) (𝓝[pjGood] q)
      (𝓝 (L.mass / (2 * π * L.sigmacr * (L.d_l * arcsecToRad) ^ 2) * ((q.1 + q.2) / (u * v * (u + v))))) := by
  intro R u v
  have hR : 0 < R := radius_pos (sub_ne_zero_or hxy)
  have hc : Continuous fun p : ℝ × ℝ => L.mass / (2 * π * L.sigmacr * (L.d_l * arcsecToRad) ^ 2)
      * ((p.1 + p.2) / (√(p.1 ^ 2 + R ^ 2) * √(p.2 ^ 2 + R ^ 2)
        * (√(p.1 ^ 2 + R ^ 2) + √(p.2 ^ 2 + R ^ 2)))) := by
    refine continuous_const.mul (Continuous.div (by fun_prop) (by fun_prop) fun p => ?_)
    have h1 : 0 < √(p.1 ^ 2 + R ^ 2) := sqrt_pos.mpr (by positivity)
    have h2 : 0 < √(p.2 ^ 2 + R ^ 2) := sqrt_pos.mpr (by positivity)
    positivity
  refine (hc.continuousWithinAt (s := pjGood) (x := q)).tendsto.congr' ?_
  filter_upwards [self_mem_nhdsWithin] with p hp
  obtain ⟨h1, h2, h3⟩ := hp
  have hsc := hL.sig
  have ha := arcsecToRad_pos
  have hdl := hL.d_l
  have hpi := pi_pos
  have hne : p.2 - p.1 ≠ 0 := sub_ne_zero.2 h3.symm
  have hR2 : R ^ 2 = (x - L.x0) ^ 2 + (y - L.y0) ^ 2 := sq_sqrt (by positivity)
  simp only [PJaffe.convergence, PJaffe.radii, translateRotate, hs, add_zero, pjKappa0, ← hR2]
  have p1 := sq_sqrt (show 0 ≤ p.1 ^ 2 + R ^ 2 by positivity)
  have p2 := sq_sqrt (show 0 ≤ p.2 ^ 2 + R ^ 2 by positivity)
  have q1 : 0 < √(p.1 ^ 2 + R ^ 2) := sqrt_pos.mpr (by positivity)
  have q2 : 0 < √(p.2 ^ 2 + R ^ 2) := sqrt_pos.mpr (by positivity)
  generalize √(p.1 ^ 2 + R ^ 2) = a at *
  generalize √(p.2 ^ 2 + R ^ 2) = b at *
  have hb : b ^ 2 - a ^ 2 = p.2 ^ 2 - p.1 ^ 2 := by rw [p1, p2]; ring
  field_simp
  linear_combination -L.mass * hb

/-- `c log(c + √(c² + R²)) - √(c² + R²)` has the derivative `log(c + √(c² + R²))`. -/
theorem pj_hasDerivAt_radius {c R : ℝ} (hc : 0 ≤ c) (hR : 0 < R) :
    HasDerivAt (fun c => c * log (c + √(c ^ 2 + R ^ 2)) - √(c ^ 2 + R ^ 2)) (log (c + √(c ^ 2 + R ^ 2))) c := by
  have hp : 0 < c ^ 2 + R ^ 2 := by positivity
  have hq : 0 < √(c ^ 2 + R ^ 2) := sqrt_pos.mpr hp
  have h1 : HasDerivAt (fun c : ℝ => √(c ^ 2 + R ^ 2)) (c / √(c ^ 2 + R ^ 2)) c := by
    have := ((hasDerivAt_pow 2 c).add_const (R ^ 2)).sqrt hp.ne'
    convert this using 1
    field_simp
    norm_num
    ring
  have h2 := ((hasDerivAt_id c).add h1).log (show c + √(c ^ 2 + R ^ 2) ≠ 0 by positivity)
  have h3 := ((hasDerivAt_id c).mul h2).sub h1
  refine h3.congr_deriv ?_
  simp only [id, Pi.add_apply]
  have : 0 < c + √(c ^ 2 + R ^ 2) := by positivity
  field_simp
  ring

/-- Equal radii: the potential has a limit as `Rc` tends to a positive `Rs`. -/
theorem C130_potential_limit (L : PJaffe) (hL : L.Far) (hs : L.s = 0) (a : ℝ) (ha : 0 < a) (x y : ℝ)
    (hxy : (x, y) ≠ (L.x0, L.y0)) :
    let R := √((x - L.x0) ^ 2 + (y - L.y0) ^ 2)
    Tendsto (fun c => (L.radii (c, a)).potential x y) (𝓝[≠] a)
      (𝓝 (L.mass / (π * L.sigmacr * (L.d_l * arcsecToRad) ^ 2) * log (a + √(a ^ 2 + R ^ 2)))) := by
  intro R
  have hR : 0 < R := radius_pos (sub_ne_zero_or hxy)
  have hd := (hasDerivAt_iff_tendsto_slope.1 (pj_hasDerivAt_radius ha.le hR)).const_mul
    (L.mass / (π * L.sigmacr * (L.d_l * arcsecToRad) ^ 2))
  refine hd.congr' ?_
  have hpos : ∀ᶠ c in 𝓝[≠] a, 0 < c := nhdsWithin_le_nhds (lt_mem_nhds ha)
  filter_upwards [self_mem_nhdsWithin, hpos] with c hc hc0
  have hsc := hL.sig
  have hr := arcsecToRad_pos
  have hdl := hL.d_l; have hds := hL.d_s; have hdls := hL.d_ls; have hG := hL.G
  have hpi := pi_pos
  have hne : a - c ≠ 0 := sub_ne_zero.2 (Ne.symm hc)
  have hne' : c - a ≠ 0 := sub_ne_zero.2 hc
  have hR2 : R ^ 2 = (x - L.x0) ^ 2 + (y - L.y0) ^ 2 := sq_sqrt (by positivity)
  simp only [PJaffe.potential, PJaffe.radii, translateRotate, hs, add_zero, pjKappa0, ← hR2, slope_def_field,
    hL.sigmacr]
  generalize √(c ^ 2 + R ^ 2) = u
  generalize √(a ^ 2 + R ^ 2) = v
  generalize log (c + u) = lu
  generalize log (a + v) = lv
  rw [show c - a = -(a - c) by ring, div_neg]
  field_simp
  ring

/-! ### The isothermal limits -/

/-- Outer radius to infinity with the mass growing like `Rs - Rc`: an isothermal sphere with the core
`Rc`.  `b` is the Einstein radius of the isothermal sphere that the lens is outside of its core. -/
theorem C130_cored_isothermal (L : PJaffe) (hL : L.Far) (hs : L.s = 0) (b a : ℝ) (ha : 0 ≤ a)
    (x y : ℝ) (hxy : (x, y) ≠ (L.x0, L.y0)) :
    let R := √((x - L.x0) ^ 2 + (y - L.y0) ^ 2)
    let lens := fun p : ℝ × ℝ => { (L.radii p) with
      mass := b * (π * L.sigmacr * (L.d_l * arcsecToRad) ^ 2) * (p.2 - p.1) }
    Tendsto (fun p => (lens p).deflection x y) (𝓝[>] a ×ˢ atTop)
      (𝓝 (b * (√(a ^ 2 + R ^ 2) - a) / R * (x - L.x0) / R,
          b * (√(a ^ 2 + R ^ 2) - a) / R * (y - L.y0) / R)) := by
  intro R lens
  have hR : 0 < R := radius_pos (sub_ne_zero_or hxy)
  have hsc := hL.sig
  have hr := arcsecToRad_pos
  have hdl := hL.d_l
  have hpi := pi_pos
  -- the two terms of the profile
  have t1 : Tendsto (fun p : ℝ × ℝ => √(p.1 ^ 2 + R ^ 2) - p.1) (𝓝[>] a ×ˢ atTop) (𝓝 (√(a ^ 2 + R ^ 2) - a)) := by
    have hc : Continuous fun c : ℝ => √(c ^ 2 + R ^ 2) - c := by fun_prop
    exact ((hc.tendsto a).mono_left nhdsWithin_le_nhds).comp tendsto_fst
  have t2 : Tendsto (fun p : ℝ × ℝ => √(p.2 ^ 2 + R ^ 2) - p.2) (𝓝[>] a ×ˢ atTop) (𝓝 0) := by
    have hc : Tendsto (fun c : ℝ => √(c ^ 2 + R ^ 2) - c) atTop (𝓝 0) := by
      have hb : Tendsto (fun c : ℝ => R ^ 2 / c) atTop (𝓝 0) := tendsto_const_nhds.div_atTop tendsto_id
      refine squeeze_zero' ?_ ?_ hb
      · filter_upwards [eventually_gt_atTop 0] with c hc
        have := le_sqrt_of_sq_le (show c ^ 2 ≤ c ^ 2 + R ^ 2 by nlinarith [sq_nonneg R])
        linarith
      · filter_upwards [eventually_gt_atTop 0] with c hc
        have h : √(c ^ 2 + R ^ 2) ≤ c + R ^ 2 / c := by
          refine sqrt_le_iff.2 ⟨by positivity, ?_⟩
          have : (c + R ^ 2 / c) ^ 2 = c ^ 2 + 2 * R ^ 2 + (R ^ 2 / c) ^ 2 := by field_simp; ring
          rw [this]; nlinarith [sq_nonneg (R ^ 2 / c), sq_nonneg R]
        linarith
    exact hc.comp tendsto_snd
  have t3 := t1.sub t2
  rw [sub_zero] at t3
  have h : Tendsto (fun p : ℝ × ℝ => ((b * (√(p.1 ^ 2 + R ^ 2) - p.1 - (√(p.2 ^ 2 + R ^ 2) - p.2)) / R * (x - L.x0) / R,
      b * (√(p.1 ^ 2 + R ^ 2) - p.1 - (√(p.2 ^ 2 + R ^ 2) - p.2)) / R * (y - L.y0) / R) : ℝ × ℝ))
      (𝓝[>] a ×ˢ atTop) (𝓝 (b * (√(a ^ 2 + R ^ 2) - a) / R * (x - L.x0) / R,
          b * (√(a ^ 2 + R ^ 2) - a) / R * (y - L.y0) / R)) := by
    refine Tendsto.prodMk_nhds ?_ ?_ <;>
    · refine Tendsto.div_const (Tendsto.mul_const _ (Tendsto.div_const (Tendsto.const_mul _ t3) _)) _
  refine h.congr' ?_
  have e1 : ∀ᶠ p : ℝ × ℝ in 𝓝[>] a ×ˢ atTop, a < p.1 := tendsto_fst.eventually self_mem_nhdsWithin
  have e2 : ∀ᶠ p : ℝ × ℝ in 𝓝[>] a ×ˢ atTop, p.1 < a + 1 :=
    tendsto_fst.eventually (nhdsWithin_le_nhds (gt_mem_nhds (by linarith)))
  have e3 : ∀ᶠ p : ℝ × ℝ in 𝓝[>] a ×ˢ atTop, a + 1 < p.2 := tendsto_snd.eventually (eventually_gt_atTop _)
  filter_upwards [e1, e2, e3] with p h1 h2 h3
  have hok : (lens p).Ok := ⟨hL.G, (ha.trans_lt h1 : 0 < p.1), (show 0 < p.2 by linarith), (show p.1 ≠ p.2 by linarith),
    hL.d_l, hL.d_s, hL.d_ls, hL.sigmacr⟩
  have hd : p.2 - p.1 ≠ 0 := by linarith
  rw [C54_pseudo_jaffe_mass (lens p) hok hs x y hxy]
  simp only [lens, PJaffe.radii, pjMassEnclosed, add_zero]
  change _ = (_ / (π * L.sigmacr * (L.d_l * arcsecToRad) ^ 2 * R) * (x - L.x0) / R,
    _ / (π * L.sigmacr * (L.d_l * arcsecToRad) ^ 2 * R) * (y - L.y0) / R)
  refine Prod.ext ?_ ?_ <;>
  · simp only []
    field_simp
    ring

/-- Outer radius to infinity and core radius to 0 together: the `SIS` lens. -/
theorem C130_isothermal (L : PJaffe) (hL : L.Far) (hs : L.s = 0) (b : ℝ)
    (x y : ℝ) (hxy : (x, y) ≠ (L.x0, L.y0)) :
    let lens := fun p : ℝ × ℝ => { (L.radii p) with
      mass := b * (π * L.sigmacr * (L.d_l * arcsecToRad) ^ 2) * (p.2 - p.1) }
    Tendsto (fun p => (lens p).deflection x y) (𝓝[>] 0 ×ˢ atTop)
      (𝓝 (sisDeflection L.x0 L.y0 b 0 x y)) := by
  intro lens
  have hR := radius_pos (sub_ne_zero_or hxy)
  have h := C130_cored_isothermal L hL hs b 0 le_rfl x y hxy
  convert h using 2
  simp only [sisDeflection, translateRotate, add_zero]
  generalize √((x - L.x0) ^ 2 + (y - L.y0) ^ 2) = R at *
  rw [show √(0 ^ 2 + R ^ 2) = R by rw [zero_pow two_ne_zero, zero_add, sqrt_sq hR.le], sub_zero,
    mul_div_cancel_right₀ _ hR.ne']

/-! ### The central convergence -/

/-- `central_convergence` is the convergence at the centre of the lens whose central mass density is
`rho_0`: a profile `ρ₀/((1+r²/Rc²)(1+r²/Rs²))` with the radii in Mpc has the total mass
`2π²ρ₀Rc²Rs²/(Rc+Rs)`, and with that mass the convergence of the lens at its centre is the number
that `central_convergence` returns for the same radii in Mpc. -/
theorem C130_central (L : PJaffe) (hL : L.Ok) (hs : L.s = 0) (rho0 : ℝ) :
    let m := L.d_l * arcsecToRad
    let M := 2 * π ^ 2 * rho0 * (m * L.Rc) ^ 2 * (m * L.Rs) ^ 2 / (m * L.Rc + m * L.Rs)
    { L with mass := M }.convergence L.x0 L.y0 = pjCentralConvergence rho0 (m * L.Rc) (m * L.Rs) L.sigmacr := by
  intro m M
  have ha := arcsecToRad_pos
  have h1 := hL.Rc; have h2 := hL.Rs; have h3 := hL.d_l; have h4 := hL.d_s; have h5 := hL.d_ls
  have h6 := hL.G
  have hpi := pi_pos
  have hsc : 0 < L.sigmacr := by rw [hL.sigmacr]; positivity
  have hne := sub_ne_zero.2 hL.ne.symm
  have hm : 0 < m := by positivity
  simp only [PJaffe.convergence, translateRotate, hs, sub_self, pjKappa0, pjCentralConvergence]
  rw [show L.Rc ^ 2 + (0 ^ 2 + 0 ^ 2 + 0) = L.Rc ^ 2 by ring, show L.Rs ^ 2 + (0 ^ 2 + 0 ^ 2 + 0) = L.Rs ^ 2 by ring,
    sqrt_sq h1.le, sqrt_sq h2.le]
  change M / (2 * π * L.sigmacr * L.Rc * L.Rs * m ^ 2) * _ * _ / _ * _ = _
  simp only [M]
  clear_value m
  field_simp

/-! ### Examples -/

theorem pjEx_far : pjEx.Far := ⟨pjEx_ok.G, pjEx_ok.d_l, pjEx_ok.d_s, pjEx_ok.d_ls, pjEx_ok.sigmacr⟩

/-- Every pair of radii from 0 up is approached by good ones, so the limits are not over nothing. -/
theorem pjGood_neBot {q : ℝ × ℝ} (h1 : 0 ≤ q.1) (h2 : 0 ≤ q.2) : (𝓝[pjGood] q).NeBot := by
  rw [← mem_closure_iff_nhdsWithin_neBot, Metric.mem_closure_iff]
  intro e he
  rcases eq_or_ne q.1 q.2 with h | h
  · refine ⟨(q.1 + e / 2, q.2 + e / 3), ⟨by simp only []; positivity, by simp only []; positivity,
      by simp only []; intro h'; linarith⟩, ?_⟩
    rw [Prod.dist_eq]
    simp only [dist_self_add_right, Real.norm_eq_abs]
    rw [abs_of_pos (by positivity), abs_of_pos (by positivity)]
    exact max_lt (by linarith) (by linarith)
  · refine ⟨(q.1 + e / 2, q.2 + e / 2), ⟨by simp only []; positivity, by simp only []; positivity,
      by simp only []; intro h'; exact h (by linarith)⟩, ?_⟩
    rw [Prod.dist_eq]
    simp only [dist_self_add_right, Real.norm_eq_abs]
    rw [abs_of_pos (by positivity)]
    exact max_lt (by linarith) (by linarith)

/-- Equal radii 3/4 at the angle 1: the code has no number, the limit is 2/5 of the point mass. -/
example : (pjEx.radii (3 / 4, 3 / 4)).deflectionOpt 1 0 = none ∧
    ∃ A : ℝ, A = 5 * (2 / 5) / (π * (1 / (4 * π)) * arcsecToRad ^ 2) ∧
      Tendsto (fun p => (pjEx.radii p).deflection 1 0) (𝓝[pjGood] (3 / 4, 3 / 4)) (𝓝 (A, 0)) := by
  refine ⟨(C130_fails_equal _ rfl 1 0 0 0).1, _, rfl, ?_⟩
  have h := C130_equal_limit pjEx pjEx_far rfl (3 / 4) 1 0 (by simp [pjEx])
  convert h using 2
  have e : √((1 - pjEx.x0) ^ 2 + (0 - pjEx.y0) ^ 2) = 1 := by norm_num [pjEx]
  have e2 : √((3 / 4 : ℝ) ^ 2 + 1 ^ 2) = 5 / 4 := by
    rw [show ((3 / 4 : ℝ) ^ 2 + 1 ^ 2) = (5 / 4) ^ 2 by norm_num]; exact sqrt_sq (by norm_num)
  simp only [e, e2]
  norm_num [pjEx]

/-- The mass inside the angle 1 with `Rc = 0`, `Rs = 3/4` is a number, two thirds of the total; the
deflection there is not. -/
example : pjMassEnclosedOpt 1 5 0 (3 / 4) 0 = some (5 * (2 / 3)) ∧
    (pjEx.radii (0, 3 / 4)).deflectionOpt 1 0 = none := by
  refine ⟨?_, (C130_fails_zero _ (Or.inl rfl) 1 0).1⟩
  rw [C130_mass_partial _ _ _ _ (by norm_num)]
  have e2 : √((3 / 4 : ℝ) ^ 2 + 1 ^ 2) = 5 / 4 := by
    rw [show ((3 / 4 : ℝ) ^ 2 + 1 ^ 2) = (5 / 4) ^ 2 by norm_num]; exact sqrt_sq (by norm_num)
  simp only [pjMassEnclosed, add_zero, e2]
  norm_num

/-- The central convergence of radii 1 and 2 (in Mpc) with density 3 and critical density 1. -/
example : pjCentralConvergence 3 1 2 1 = 2 * π := by
  simp only [pjCentralConvergence]; ring

end Caustics

import Verif.Model.MultipoleInt
import Verif.Props.LensSimple

/-! C115: the orders of a `Multipole` are 32 bit integers. -/

open Real

namespace Caustics

/-- The claim: whatever stack of orders the constructor accepts, potential, deflection and convergence belong together. -/
def C115_statement : Prop :=
  ∀ (ms : List ℤ) (x0 y0 : ℝ) (a phim : Fin ms.length → ℝ) (x y : ℝ), multipoleInit ms = .ok ms → (x, y) ≠ (x0, y0) →
    HasGrad (multipoleClassPotential x0 y0 ms.get a phim) (multipoleClassDeflection x0 y0 ms.get a phim x y).1
      (multipoleClassDeflection x0 y0 ms.get a phim x y).2 x y ∧
    HasKappa (multipoleClassDeflection x0 y0 ms.get a phim) (multipoleClassConvergence x0 y0 ms.get a phim x y) x y

theorem wrap32_eq {k : ℤ} (h : -2147483648 ≤ k) (h' : k < 2147483648) : wrap32 k = k := by
  unfold wrap32
  rw [Int.bmod_eq_of_le] <;> norm_num <;> omega

theorem multipoleDen_eq {m : ℤ} (h : 2 ≤ m) (h' : m ≤ 46340) : multipoleDen m = 1 - m ^ 2 := by
  have h1 : m ^ 2 ≤ 46340 ^ 2 := by nlinarith
  have h2 : 0 ≤ m ^ 2 := sq_nonneg m
  norm_num at h1
  unfold multipoleDen
  rw [wrap32_eq (k := m ^ 2) (by omega) (by omega), wrap32_eq (by omega) (by omega)]

/-- The constructor accepts exactly the stacks of orders from 2 to `2^31 - 1`. -/
theorem C115_accepts (ms : List ℤ) : multipoleInit ms = .ok ms ↔ ∀ m ∈ ms, 2 ≤ m ∧ m < 2147483648 := by
  have hw : ∀ m : ℤ, 2 ≤ m → (wrap32 m = m ↔ m < 2147483648) := by
    intro m hm
    refine ⟨fun h => ?_, fun h => wrap32_eq (by omega) h⟩
    have := Int.bmod_lt (x := m) (m := 2 ^ 32) (by norm_num)
    unfold wrap32 at h
    rw [h] at this
    norm_num at this
    exact this
  unfold multipoleInit
  split_ifs with h1 h2
  · obtain ⟨m, hm, hne⟩ := h1
    simp only [false_iff]
    intro h
    exact hne ((hw m (h m hm).1).2 (h m hm).2)
  · push Not at h1
    simp only [true_iff]
    exact fun m hm => ⟨h2 m hm, (hw m (h2 m hm)).1 (h1 m hm)⟩
  · simp only [false_iff]
    exact fun h => h2 fun m hm => (h m hm).1

/-- Up to order 46340 the class computes the multipole of that order. -/
theorem C115_orders_partial (ms : List ℤ) (h : multipoleInit ms = .ok ms) (hs : ∀ m ∈ ms, m ≤ 46340) (x0 y0 : ℝ)
    (a phim : Fin ms.length → ℝ) (x y : ℝ) (hp : (x, y) ≠ (x0, y0)) :
    HasGrad (multipoleClassPotential x0 y0 ms.get a phim) (multipoleClassDeflection x0 y0 ms.get a phim x y).1
      (multipoleClassDeflection x0 y0 ms.get a phim x y).2 x y ∧
    HasKappa (multipoleClassDeflection x0 y0 ms.get a phim) (multipoleClassConvergence x0 y0 ms.get a phim x y) x y := by
  have hm := (C115_accepts ms).1 h
  have hd : ∀ i, ((multipoleDen (ms.get i) : ℤ) : ℝ) = 1 - ((ms.get i : ℤ) : ℝ) ^ 2 := by
    intro i
    rw [multipoleDen_eq (hm _ (ms.get_mem i)).1 (hs _ (ms.get_mem i))]
    push_cast
    ring
  have e1 : multipoleClassDeflection x0 y0 ms.get a phim = multipoleDeflection x0 y0 (fun i => (ms.get i : ℝ)) a phim := by
    funext x y
    simp only [multipoleClassDeflection, multipoleDeflection, hd]
  have e2 : multipoleClassPotential x0 y0 ms.get a phim = multipolePotential x0 y0 (fun i => (ms.get i : ℝ)) a phim := by
    funext x y
    simp only [multipoleClassPotential, multipolePotential, hd]
  rw [e1, e2]
  exact ⟨C23_multipole x0 y0 ms.get a phim x y hp, C24_multipole x0 y0 ms.get (fun i => (hm _ (ms.get_mem i)).1) a phim x y hp⟩

/-- The deflection and the potential of one order are scaled by `(1 - m^2) / den`, the convergence is not. -/
theorem classDeflection_one (m : ℤ) (hm : 2 ≤ m) (a phim x y : ℝ) :
    multipoleClassDeflection 0 0 (fun _ : Fin 1 => m) (fun _ => a) (fun _ => phim) x y =
      multipoleDeflection 0 0 (fun _ : Fin 1 => (m : ℝ)) (fun _ => (1 - (m : ℝ) ^ 2) / multipoleDen m * a) (fun _ => phim) x y := by
  have : (1 : ℝ) - (m : ℝ) ^ 2 ≠ 0 := by
    have h : (2 : ℝ) ≤ m := by exact_mod_cast hm
    nlinarith
  simp only [multipoleClassDeflection, multipoleDeflection, Finset.univ_unique, Finset.sum_singleton]
  ext <;> simp only <;> field_simp

/-- From order 46341 the square leaves the 32 bit integers: the denominator changes sign and the deflection points the
wrong way for the convergence. -/
theorem C115_fails : ¬ C115_statement := by
  intro h
  have hd : multipoleDen 46341 = 2147479016 := by decide +kernel
  have := (h [46341] 0 0 (fun _ => 1) (fun _ => 0) 1 0 (by decide +kernel) (by norm_num)).2
  have e : multipoleClassDeflection 0 0 (List.get [46341]) (fun _ => 1) (fun _ => 0) = fun x y =>
      multipoleDeflection 0 0 (fun _ : Fin 1 => ((46341 : ℤ) : ℝ)) (fun _ => (1 - ((46341 : ℤ) : ℝ) ^ 2) / multipoleDen 46341 * 1)
        (fun _ => 0) x y := by
    funext x y
    rw [← classDeflection_one 46341 (by norm_num)]
    congr 1
    funext i
    have hi : i = (0 : Fin 1) := Fin.eq_zero _
    subst hi
    rfl
  rw [e] at this
  have h2 := C24_multipole 0 0 (fun _ : Fin 1 => 46341) (fun _ => by norm_num)
    (fun _ => (1 - ((46341 : ℤ) : ℝ) ^ 2) / multipoleDen 46341 * 1) (fun _ => 0) 1 0 (by norm_num)
  have h3 := this.unique h2
  have ha : arctan2 0 1 = 0 := by simp [arctan2, Complex.arg]
  have hL : ∀ f : Fin [(46341 : ℤ)].length → ℝ, ∑ i, f i = f 0 := fun f => Fin.sum_univ_one f
  simp only [multipoleClassConvergence, multipoleConvergence, translateRotate, sub_zero, hL, Finset.univ_unique,
    Finset.sum_singleton, ha, mul_zero, cos_zero, hd] at h3
  norm_num at h3

/-- Order 65536 squares to zero, order `2^31 - 1` to one: the deflection divides by zero. -/
theorem C115_zero_division : multipoleDen 65536 = 1 ∧ multipoleDen 2147483647 = 0 ∧
    multipoleInit [65536, 2147483647] = .ok [65536, 2147483647] := by decide +kernel

example : multipoleInit [3, 4] = .ok [3, 4] ∧ multipoleInit [1] = .error .assertionError ∧
    multipoleInit [2147483648] = .error .valueError ∧ multipoleDen 46340 = 1 - 46340 ^ 2 := by decide +kernel

example (x y : ℝ) (hp : (x, y) ≠ (0, 0)) := C115_orders_partial [3, 4] (by decide +kernel) (by decide) 0 0
  ![0.1, -0.2] ![0, 1] x y hp

end Caustics

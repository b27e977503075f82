import Verif.Model.FFT
import Mathlib.Algebra.Field.GeomSum
import Mathlib.Tactic.FieldSimp
import Mathlib.Tactic.Ring
import Mathlib.Tactic.LinearCombination
import Mathlib.Analysis.SpecialFunctions.Complex.Log

/-! The convolution theorem for the transforms of `Model/FFT.lean`. -/

namespace Caustics

theorem twiddle_add (n : ℕ) (j k : ℤ) : twiddle n (j + k) = twiddle n j * twiddle n k := by
  unfold twiddle
  rw [← Complex.exp_add]
  congr 1
  push_cast
  ring

theorem twiddle_zero (n : ℕ) : twiddle n 0 = 1 := by simp [twiddle]

theorem twiddle_mul_self {n : ℕ} (hn : n ≠ 0) (k : ℤ) : twiddle n (n * k) = 1 := by
  unfold twiddle
  have hn' : (n : ℂ) ≠ 0 := Nat.cast_ne_zero.2 hn
  rw [Complex.exp_eq_one_iff]
  refine ⟨k, ?_⟩
  push_cast
  field_simp

theorem twiddle_conj (n : ℕ) (k : ℤ) : starRingEnd ℂ (twiddle n k) = twiddle n (-k) := by
  unfold twiddle
  rw [← Complex.exp_conj]
  congr 1
  have : starRingEnd ℂ (2 : ℂ) = 2 := Complex.conj_ofNat 2
  simp [this]

theorem twiddle_eq_one_iff {n : ℕ} (hn : n ≠ 0) (k : ℤ) : twiddle n k = 1 ↔ (n : ℤ) ∣ k := by
  constructor
  · intro h
    unfold twiddle at h
    have hn' : (n : ℂ) ≠ 0 := Nat.cast_ne_zero.2 hn
    obtain ⟨m, hm⟩ := Complex.exp_eq_one_iff.1 h
    refine ⟨m, ?_⟩
    have h2 : (2 * Real.pi * Complex.I : ℂ) ≠ 0 := Complex.two_pi_I_ne_zero
    have hm' : (k : ℂ) = n * m := by field_simp at hm; exact hm
    exact_mod_cast hm'
  · rintro ⟨m, rfl⟩
    exact twiddle_mul_self hn m

theorem twiddle_pow (n : ℕ) (k : ℤ) (v : ℕ) : twiddle n (v * k) = twiddle n k ^ v := by
  induction v with
  | zero => simp [twiddle_zero]
  | succ v ih => rw [pow_succ, ← ih, ← twiddle_add]; congr 1; push_cast; ring

/-- Orthogonality. -/
theorem twiddle_sum {n : ℕ} (hn : n ≠ 0) (k : ℤ) :
    ∑ v ∈ Finset.range n, twiddle n (v * k) = if (n : ℤ) ∣ k then (n : ℂ) else 0 := by
  simp only [twiddle_pow]
  split
  · rename_i h
    rw [(twiddle_eq_one_iff hn k).2 h]; simp
  · rename_i h
    have h1 : twiddle n k ≠ 1 := fun e => h ((twiddle_eq_one_iff hn k).1 e)
    rw [geom_sum_eq h1, ← twiddle_pow, twiddle_mul_self hn, sub_self, zero_div]

theorem dvd_sub_of_lt {n a b : ℕ} (ha : a < n) (hb : b < n) : ((n : ℤ) ∣ (a : ℤ) - b) ↔ a = b := by
  constructor
  · intro h
    have := Int.eq_zero_of_abs_lt_dvd h (by rw [abs_lt]; omega)
    omega
  · rintro rfl; simp

/-- Summing a periodic function over a period does not depend on where one starts. -/
theorem sum_shift {n : ℕ} {M : Type*} [AddCommGroup M] (f : ℤ → M) (hf : ∀ k, f (k + n) = f k) (t : ℕ) :
    ∑ a ∈ Finset.range n, f (a - t) = ∑ a ∈ Finset.range n, f a := by
  induction t with
  | zero => simp
  | succ t ih =>
    rw [← ih]
    cases n with
    | zero => simp
    | succ n =>
      rw [Finset.sum_range_succ', Finset.sum_range_succ]
      congr 1
      · refine Finset.sum_congr rfl fun a _ => ?_
        congr 1; push_cast; ring
      · rw [← hf]
        congr 1; push_cast; ring

variable {s0 s1 : ℕ}

/-- Discrete transform of a periodic array. -/
noncomputable def dft2 (s0 s1 : ℕ) (x : ℤ → ℤ → ℂ) (u v : ℕ) : ℂ :=
  ∑ a ∈ Finset.range s0, ∑ b ∈ Finset.range s1, x a b * (twiddle s0 (-(u * a)) * twiddle s1 (-(v * b)))

/-- Circular convolution. -/
noncomputable def circ (s0 s1 : ℕ) (p x : ℤ → ℤ → ℂ) (i j : ℤ) : ℂ :=
  ∑ a ∈ Finset.range s0, ∑ b ∈ Finset.range s1, p a b * x (i - a) (j - b)

theorem dft2_circ (h0 : s0 ≠ 0) (h1 : s1 ≠ 0) (p x : ℤ → ℤ → ℂ)
    (hx0 : ∀ i j, x (i + s0) j = x i j) (hx1 : ∀ i j, x i (j + s1) = x i j) (u v : ℕ) :
    dft2 s0 s1 (circ s0 s1 p x) u v = dft2 s0 s1 p u v * dft2 s0 s1 x u v := by
  have key : ∀ a b : ℕ, ∑ i ∈ Finset.range s0, ∑ j ∈ Finset.range s1,
      x ((i : ℤ) - a) ((j : ℤ) - b) * (twiddle s0 (-(u * i)) * twiddle s1 (-(v * j)))
      = twiddle s0 (-(u * a)) * twiddle s1 (-(v * b)) * dft2 s0 s1 x u v := by
    intro a b
    have e1 : ∀ i j : ℕ, x ((i : ℤ) - a) ((j : ℤ) - b) * (twiddle s0 (-(u * i)) * twiddle s1 (-(v * j)))
        = twiddle s0 (-(u * a)) * twiddle s1 (-(v * b)) *
          (x ((i : ℤ) - a) ((j : ℤ) - b) * (twiddle s0 (-(u * ((i : ℤ) - a))) * twiddle s1 (-(v * ((j : ℤ) - b))))) := by
      intro i j
      have e0 : twiddle s0 (-(u * i)) = twiddle s0 (-(u * a)) * twiddle s0 (-(u * ((i : ℤ) - a))) := by
        rw [← twiddle_add]; congr 1; ring
      have e1 : twiddle s1 (-(v * j)) = twiddle s1 (-(v * b)) * twiddle s1 (-(v * ((j : ℤ) - b))) := by
        rw [← twiddle_add]; congr 1; ring
      rw [e0, e1]; ring
    simp only [e1, ← Finset.mul_sum]
    congr 1
    have per : ∀ (s : ℕ) (hs : s ≠ 0) (w : ℕ) (k : ℤ), twiddle s (-(w * (k + s))) = twiddle s (-(w * k)) := by
      intro s hs w k
      have : (-(w * (k + s)) : ℤ) = -(w * k) + s * (-w) := by ring
      rw [this, twiddle_add, twiddle_mul_self hs, mul_one]
    rw [sum_shift (fun i => ∑ j ∈ Finset.range s1, x i ((j : ℤ) - b)
      * (twiddle s0 (-(u * i)) * twiddle s1 (-(v * ((j : ℤ) - b)))))]
    · refine Finset.sum_congr rfl fun i _ => ?_
      rw [sum_shift (fun j => x i j * (twiddle s0 (-(u * i)) * twiddle s1 (-(v * j))))]
      intro k
      rw [hx1, per s1 h1]
    · intro k
      refine Finset.sum_congr rfl fun j _ => ?_
      rw [hx0, per s0 h0]
  unfold dft2 circ
  simp only [Finset.sum_mul]
  calc _ = ∑ i ∈ Finset.range s0, ∑ a ∈ Finset.range s0, ∑ b ∈ Finset.range s1, ∑ j ∈ Finset.range s1,
        p a b * (x ((i : ℤ) - a) ((j : ℤ) - b) * (twiddle s0 (-(u * i)) * twiddle s1 (-(v * j)))) := by
        refine Finset.sum_congr rfl fun i _ => ?_
        rw [Finset.sum_comm]
        refine Finset.sum_congr rfl fun a _ => ?_
        rw [Finset.sum_comm]
        refine Finset.sum_congr rfl fun b _ => Finset.sum_congr rfl fun j _ => ?_
        ring
    _ = ∑ a ∈ Finset.range s0, ∑ b ∈ Finset.range s1, p a b * ∑ i ∈ Finset.range s0, ∑ j ∈ Finset.range s1,
        (x ((i : ℤ) - a) ((j : ℤ) - b) * (twiddle s0 (-(u * i)) * twiddle s1 (-(v * j)))) := by
        rw [Finset.sum_comm]
        refine Finset.sum_congr rfl fun a _ => ?_
        rw [Finset.sum_comm]
        refine Finset.sum_congr rfl fun b _ => ?_
        simp only [Finset.mul_sum]
    _ = _ := by
        refine Finset.sum_congr rfl fun a _ => Finset.sum_congr rfl fun b _ => ?_
        rw [key]
        unfold dft2
        ring

/-- Undoing the transform over the rows. -/
theorem idft_rows (h0 : s0 ≠ 0) (x : ℤ → ℤ → ℂ) {a : ℕ} (ha : a < s0) (v : ℕ) :
    (∑ u ∈ Finset.range s0, dft2 s0 s1 x u v * twiddle s0 (u * a)) / s0
      = ∑ b ∈ Finset.range s1, x a b * twiddle s1 (-(v * b)) := by
  have h0' : (s0 : ℂ) ≠ 0 := Nat.cast_ne_zero.2 h0
  rw [div_eq_iff h0']
  unfold dft2
  simp only [Finset.sum_mul]
  rw [Finset.sum_comm]
  have : ∀ a' ∈ Finset.range s0, ∑ u ∈ Finset.range s0, ∑ b ∈ Finset.range s1,
      x a' b * (twiddle s0 (-(u * a')) * twiddle s1 (-(v * b))) * twiddle s0 (u * a)
      = if a' = a then ∑ b ∈ Finset.range s1, x a' b * twiddle s1 (-(v * b)) * s0 else 0 := by
    intro a' ha'
    rw [Finset.sum_comm]
    have : ∀ b ∈ Finset.range s1, ∑ u ∈ Finset.range s0,
        x a' b * (twiddle s0 (-(u * a')) * twiddle s1 (-(v * b))) * twiddle s0 (u * a)
        = if a' = a then x a' b * twiddle s1 (-(v * b)) * s0 else 0 := by
      intro b _
      have e : ∀ u : ℕ, x a' b * (twiddle s0 (-(u * a')) * twiddle s1 (-(v * b))) * twiddle s0 (u * a)
          = x a' b * twiddle s1 (-(v * b)) * twiddle s0 (u * ((a : ℤ) - a')) := by
        intro u
        have : twiddle s0 (u * ((a : ℤ) - a')) = twiddle s0 (-(u * a')) * twiddle s0 (u * a) := by
          rw [← twiddle_add]; congr 1; ring
        rw [this]; ring
      simp only [e]
      rw [← Finset.mul_sum, twiddle_sum h0]
      by_cases haa : a' = a
      · rw [if_pos haa, if_pos ((dvd_sub_of_lt ha (Finset.mem_range.1 ha')).2 haa.symm)]
      · rw [if_neg haa, if_neg (fun h => haa ((dvd_sub_of_lt ha (Finset.mem_range.1 ha')).1 h).symm), mul_zero]
    rw [Finset.sum_congr rfl this]
    split <;> simp
  rw [Finset.sum_congr rfl this, Finset.sum_ite_eq' (Finset.range s0) a, if_pos (Finset.mem_range.2 ha)]

/-- Undoing the transform of a real row from half of its spectrum. -/
theorem irfft_row (h1 : s1 ≠ 0) (c : ℕ → ℝ) (Q : ℕ → ℂ)
    (hQ : ∀ v, v ≤ s1 / 2 → Q v = ∑ b ∈ Finset.range s1, (c b : ℂ) * twiddle s1 (-(v * b))) {b : ℕ} (hb : b < s1) :
    (∑ v ∈ Finset.range s1, ((if v ≤ s1 / 2 then Q v else starRingEnd ℂ (Q (s1 - v))) * twiddle s1 (v * b)).re) / s1
      = c b := by
  have h1' : (s1 : ℝ) ≠ 0 := Nat.cast_ne_zero.2 h1
  have hH : ∀ v ∈ Finset.range s1, (if v ≤ s1 / 2 then Q v else starRingEnd ℂ (Q (s1 - v)))
      = ∑ b ∈ Finset.range s1, (c b : ℂ) * twiddle s1 (-(v * b)) := by
    intro v hv
    rw [Finset.mem_range] at hv
    split
    · rename_i h; exact hQ v h
    · rename_i h
      rw [hQ _ (by omega), map_sum]
      refine Finset.sum_congr rfl fun b _ => ?_
      rw [map_mul, Complex.conj_ofReal, twiddle_conj]
      congr 1
      have : (-(-(((s1 - v : ℕ) : ℤ) * b)) : ℤ) = -(v * b) + s1 * b := by
        rw [Nat.cast_sub hv.le]; ring
      rw [this, twiddle_add, twiddle_mul_self h1, mul_one]
  rw [div_eq_iff h1', ← Complex.re_sum]
  have : ∑ v ∈ Finset.range s1, (if v ≤ s1 / 2 then Q v else starRingEnd ℂ (Q (s1 - v))) * twiddle s1 (v * b)
      = (c b : ℂ) * s1 := by
    rw [Finset.sum_congr rfl fun v hv => by rw [hH v hv]]
    simp only [Finset.sum_mul]
    rw [Finset.sum_comm]
    have : ∀ b' ∈ Finset.range s1, ∑ v ∈ Finset.range s1, (c b' : ℂ) * twiddle s1 (-(v * b')) * twiddle s1 (v * b)
        = if b' = b then (c b' : ℂ) * s1 else 0 := by
      intro b' hb'
      have e : ∀ v : ℕ, (c b' : ℂ) * twiddle s1 (-(v * b')) * twiddle s1 (v * b)
          = (c b' : ℂ) * twiddle s1 (v * ((b : ℤ) - b')) := by
        intro v
        rw [mul_assoc, ← twiddle_add]; congr 2; ring
      simp only [e]
      rw [← Finset.mul_sum, twiddle_sum h1]
      by_cases hbb : b' = b
      · rw [if_pos hbb, if_pos ((dvd_sub_of_lt hb (Finset.mem_range.1 hb')).2 hbb.symm)]
      · rw [if_neg hbb, if_neg (fun h => hbb ((dvd_sub_of_lt hb (Finset.mem_range.1 hb')).1 h).symm), mul_zero]
    rw [Finset.sum_congr rfl this, Finset.sum_ite_eq' (Finset.range s1) b, if_pos (Finset.mem_range.2 hb)]
  rw [this]
  norm_cast

/-- The zero padded image continued periodically. -/
def Img.per (x : Img) (s0 s1 : ℕ) (i j : ℤ) : ℝ := x.pad (i % s0).toNat (j % s1).toNat

/-- Multiplying half spectra and transforming back is circular convolution. -/
theorem irfft2_mul_rfft2 (h0 : s0 ≠ 0) (h1 : s1 ≠ 0) (x p : Img) {i j : ℕ} (hi : i < s0) (hj : j < s1) :
    (irfft2 (fun u v => rfft2 x s0 s1 u v * rfft2 p s0 s1 u v) s0 s1).at' i j
      = ∑ a ∈ Finset.range s0, ∑ b ∈ Finset.range s1, p.pad a b * x.per s0 s1 ((i : ℤ) - a) ((j : ℤ) - b) := by
  have hper : ∀ (y : Img) (u v : ℕ), rfft2 y s0 s1 u v = dft2 s0 s1 (fun i j => (y.per s0 s1 i j : ℂ)) u v := by
    intro y u v
    unfold rfft2 dft2
    refine Finset.sum_congr rfl fun a ha => Finset.sum_congr rfl fun b hb => ?_
    rw [Finset.mem_range] at ha hb
    have e1 : (((a : ℤ) % (s0 : ℤ))).toNat = a := by
      rw [Int.emod_eq_of_lt (by omega) (by omega)]; simp
    have e2 : (((b : ℤ) % (s1 : ℤ))).toNat = b := by
      rw [Int.emod_eq_of_lt (by omega) (by omega)]; simp
    simp only [Img.per, e1, e2]
  have hmul : ∀ u v : ℕ, rfft2 x s0 s1 u v * rfft2 p s0 s1 u v
      = dft2 s0 s1 (circ s0 s1 (fun i j => (p.per s0 s1 i j : ℂ)) (fun i j => (x.per s0 s1 i j : ℂ))) u v := by
    intro u v
    rw [dft2_circ h0 h1, hper, hper, mul_comm]
    · intro i j; simp [Img.per]
    · intro i j; simp [Img.per]
  have hc : ∀ i j : ℤ, circ s0 s1 (fun i j => (p.per s0 s1 i j : ℂ)) (fun i j => (x.per s0 s1 i j : ℂ)) i j
      = ((∑ a ∈ Finset.range s0, ∑ b ∈ Finset.range s1, p.pad a b * x.per s0 s1 (i - a) (j - b) : ℝ) : ℂ) := by
    intro i j
    unfold circ
    push_cast
    refine Finset.sum_congr rfl fun a ha => Finset.sum_congr rfl fun b hb => ?_
    rw [Finset.mem_range] at ha hb
    have e1 : (((a : ℤ) % (s0 : ℤ))).toNat = a := by
      rw [Int.emod_eq_of_lt (by omega) (by omega)]; simp
    have e2 : (((b : ℤ) % (s1 : ℤ))).toNat = b := by
      rw [Int.emod_eq_of_lt (by omega) (by omega)]; simp
    simp only [Img.per, e1, e2]
  unfold irfft2
  refine irfft_row h1 (fun j => ∑ a ∈ Finset.range s0, ∑ b ∈ Finset.range s1,
    p.pad a b * x.per s0 s1 ((i : ℤ) - a) ((j : ℤ) - b)) _ ?_ hj
  intro v _
  simp only [hmul]
  rw [idft_rows h0 _ hi]
  refine Finset.sum_congr rfl fun b _ => ?_
  rw [hc]

end Caustics

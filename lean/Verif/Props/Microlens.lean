import Verif.Model.Microlens
import Mathlib.Analysis.SpecialFunctions.Integrals.Basic
import Mathlib.MeasureTheory.Integral.IntervalIntegral.Basic
import Mathlib.Tactic.Positivity
import Mathlib.Tactic.FieldSimp
import Mathlib.Tactic.Linarith
import Mathlib.Tactic.NormNum
import Mathlib.Tactic.Ring

/-! C43: the flux estimates of `Microlens`. -/

namespace Caustics

/-- The two ways of choosing sample positions are accepted. -/
def GoodMethod (method : String) : Prop := method = "mcmc" ∨ method = "grid"

/-- Sample positions of the accepted methods. -/
noncomputable def samples (fov : Fov) (method : String) (ux uy : List ℝ) (nGrid : ℕ) : List (ℝ × ℝ) :=
  if method = "mcmc" then
    List.zip (ux.map fun u => u * (fov.f1 - fov.f0) + fov.f0) (uy.map fun u => u * (fov.f3 - fov.f2) + fov.f2)
  else (linspace fov.f0 fov.f1 nGrid).flatMap fun x => (linspace fov.f2 fov.f3 nGrid).map fun y => (x, y)

/-- The square root of the number of samples the code divides by. -/
noncomputable def rootN (method : String) (ux : List ℝ) (nGrid : ℕ) : ℝ :=
  if method = "mcmc" then (ux.length : ℝ) ^ (0.5 : ℝ) else nGrid

theorem microlens_eq (rt : ℝ → ℝ → ℝ × ℝ) (B : ℝ → ℝ → ℝ) (fov : Fov) {method : String} (ux uy : List ℝ) (nGrid : ℕ)
    (hm : GoodMethod method) :
    microlens rt B fov method ux uy nGrid =
      .ok (meanL ((samples fov method ux uy nGrid).map fun p => B (rt p.1 p.2).1 (rt p.1 p.2).2)
          * ((fov.f1 - fov.f0) * (fov.f3 - fov.f2)),
        stdL ((samples fov method ux uy nGrid).map fun p => B (rt p.1 p.2).1 (rt p.1 p.2).2)
          * ((fov.f1 - fov.f0) * (fov.f3 - fov.f2)) / rootN method ux nGrid) := by
  unfold microlens samples rootN
  rcases hm with rfl | rfl
  · simp
  · simp

theorem microlens_flux (rt : ℝ → ℝ → ℝ × ℝ) (B : ℝ → ℝ → ℝ) (fov : Fov) {method : String} (ux uy : List ℝ) (nGrid : ℕ)
    (hm : GoodMethod method) {F : ℝ}
    (hF : meanL ((samples fov method ux uy nGrid).map fun p => B (rt p.1 p.2).1 (rt p.1 p.2).2)
      * ((fov.f1 - fov.f0) * (fov.f3 - fov.f2)) = F) : ∃ e, microlens rt B fov method ux uy nGrid = .ok (F, e) :=
  ⟨_, by rw [microlens_eq _ _ _ _ _ _ hm, hF]⟩

/-- Number of samples. -/
theorem samples_length (fov : Fov) (method : String) {ux uy : List ℝ} (nGrid : ℕ) (hl : ux.length = uy.length) :
    (samples fov method ux uy nGrid).length = if method = "mcmc" then ux.length else nGrid * nGrid := by
  unfold samples
  split
  · simp [hl]
  · have h : ∀ lo hi : ℝ, (linspace lo hi nGrid).length = nGrid := by intro lo hi; simp [linspace]
    rw [List.length_flatMap]
    simp only [List.length_map, h, List.map_const', List.sum_replicate, smul_eq_mul]

/-- Numbers on a regular grid lie between its ends. -/
theorem linspace_mem {lo hi : ℝ} (h : lo ≤ hi) {n : ℕ} {v : ℝ} (hv : v ∈ linspace lo hi n) : lo ≤ v ∧ v ≤ hi := by
  unfold linspace at hv
  rw [List.mem_map] at hv
  obtain ⟨i, hi', rfl⟩ := hv
  rw [List.mem_range] at hi'
  split
  · exact ⟨le_refl _, h⟩
  · rename_i h1
    have hn : (1 : ℝ) ≤ (n : ℝ) - 1 := by
      have : (2 : ℝ) ≤ n := by exact_mod_cast (by omega : 2 ≤ n)
      linarith
    have hi2 : (i : ℝ) ≤ (n : ℝ) - 1 := by
      have : (i : ℝ) + 1 ≤ n := by exact_mod_cast hi'
      linarith
    have h0 : (0 : ℝ) ≤ i := Nat.cast_nonneg i
    have hd : 0 ≤ (hi - lo) / ((n : ℝ) - 1) := div_nonneg (by linarith) (by linarith)
    constructor
    · nlinarith
    · have : (i : ℝ) * ((hi - lo) / ((n : ℝ) - 1)) ≤ ((n : ℝ) - 1) * ((hi - lo) / ((n : ℝ) - 1)) :=
        mul_le_mul_of_nonneg_right hi2 hd
      rw [mul_div_cancel₀ _ (by linarith : (n : ℝ) - 1 ≠ 0)] at this
      linarith

theorem samples_inside {fov : Fov} (hx : fov.f0 ≤ fov.f1) (hy : fov.f2 ≤ fov.f3) (method : String) {ux uy : List ℝ}
    (nGrid : ℕ) (hux : ∀ u ∈ ux, 0 ≤ u ∧ u ≤ 1) (huy : ∀ u ∈ uy, 0 ≤ u ∧ u ≤ 1) {p : ℝ × ℝ}
    (hp : p ∈ samples fov method ux uy nGrid) :
    (fov.f0 ≤ p.1 ∧ p.1 ≤ fov.f1) ∧ fov.f2 ≤ p.2 ∧ p.2 ≤ fov.f3 := by
  have aff : ∀ lo hi u : ℝ, lo ≤ hi → 0 ≤ u ∧ u ≤ 1 → lo ≤ u * (hi - lo) + lo ∧ u * (hi - lo) + lo ≤ hi := by
    intro lo hi u h hu
    constructor <;> nlinarith [hu.1, hu.2]
  unfold samples at hp
  split at hp
  · have h1 := (List.of_mem_zip hp).1
    have h2 := (List.of_mem_zip hp).2
    rw [List.mem_map] at h1 h2
    obtain ⟨u, hu, h1⟩ := h1
    obtain ⟨v, hv, h2⟩ := h2
    rw [← h1, ← h2]
    exact ⟨aff _ _ _ hx (hux u hu), aff _ _ _ hy (huy v hv)⟩
  · rw [List.mem_flatMap] at hp
    obtain ⟨x, hx', hp⟩ := hp
    rw [List.mem_map] at hp
    obtain ⟨y, hy', rfl⟩ := hp
    exact ⟨linspace_mem hx hx', linspace_mem hy hy'⟩

theorem meanL_const {l : List ℝ} {k : ℝ} (h0 : l ≠ []) (h : ∀ v ∈ l, v = k) : meanL l = k := by
  have : l = List.replicate l.length k := List.eq_replicate_iff.2 ⟨rfl, h⟩
  have hl : (l.length : ℝ) ≠ 0 := by
    simpa using h0
  unfold meanL
  have hs : l.sum = l.length * k := by
    conv_lhs => rw [this]
    simp
  rw [hs]
  field_simp

theorem stdL_const {l : List ℝ} {k : ℝ} (h0 : l ≠ []) (h : ∀ v ∈ l, v = k) : stdL l = 0 := by
  unfold stdL
  rw [meanL_const h0 h, meanL_const (k := 0) (by simpa using h0), Real.sqrt_zero]
  intro v hv
  rw [List.mem_map] at hv
  obtain ⟨w, hw, rfl⟩ := hv
  rw [h w hw, sub_self, zero_pow two_ne_zero]

/-- Uniform brightness: flux is brightness times area and the reported error is zero. -/
theorem C43_uniform (rt : ℝ → ℝ → ℝ × ℝ) (k : ℝ) (fov : Fov) {method : String} (hm : GoodMethod method) {ux uy : List ℝ}
    (hl : ux.length = uy.length) (hne : 0 < ux.length) {nGrid : ℕ} (hn : 0 < nGrid) :
    microlens rt (fun _ _ => k) fov method ux uy nGrid = .ok (k * ((fov.f1 - fov.f0) * (fov.f3 - fov.f2)), 0) := by
  rw [microlens_eq _ _ _ _ _ _ hm]
  have h0 : (samples fov method ux uy nGrid).map (fun _ => k) ≠ [] := by
    rw [Ne, List.map_eq_nil_iff, ← List.length_eq_zero_iff, samples_length fov method nGrid hl]
    split
    · omega
    · exact (Nat.mul_pos hn hn).ne'
  have h : ∀ v ∈ (samples fov method ux uy nGrid).map (fun _ => k), v = k := by
    intro v hv
    rw [List.mem_map] at hv
    obtain ⟨_, _, rfl⟩ := hv
    rfl
  rw [meanL_const h0 h, stdL_const h0 h, zero_mul, zero_div]

theorem meanL_comb {A : Type*} (l : List A) (f g : A → ℝ) (s t : ℝ) :
    meanL (l.map fun a => s * f a + t * g a) = s * meanL (l.map f) + t * meanL (l.map g) := by
  unfold meanL
  simp only [List.length_map]
  have : (l.map fun a => s * f a + t * g a).sum = s * (l.map f).sum + t * (l.map g).sum := by
    induction l with
    | nil => simp
    | cons a l ih => simp only [List.map_cons, List.sum_cons, ih]; ring
  rw [this]
  ring

/-- The flux is linear in the brightness; the reported error scales with the absolute factor. -/
theorem C43_linear (rt : ℝ → ℝ → ℝ × ℝ) (B B' : ℝ → ℝ → ℝ) (fov : Fov) {method : String} (hm : GoodMethod method)
    (ux uy : List ℝ) (nGrid : ℕ) (s t : ℝ) :
    ∃ F F' e e', microlens rt B fov method ux uy nGrid = .ok (F, e) ∧
      microlens rt B' fov method ux uy nGrid = .ok (F', e') ∧
      (∃ e'', microlens rt (fun a b => s * B a b + t * B' a b) fov method ux uy nGrid = .ok (s * F + t * F', e'')) ∧
      microlens rt (fun a b => s * B a b) fov method ux uy nGrid = .ok (s * F, |s| * e) := by
  refine ⟨_, _, _, _, microlens_eq _ _ _ _ _ _ hm, microlens_eq _ _ _ _ _ _ hm, ?_, ?_⟩
  · refine microlens_flux _ _ _ _ _ _ hm ?_
    rw [meanL_comb, add_mul, mul_assoc, mul_assoc]
  · rw [microlens_eq _ _ _ _ _ _ hm]
    generalize samples fov method ux uy nGrid = l
    have e1 : ∀ f : ℝ × ℝ → ℝ, meanL (l.map fun a => s * f a) = s * meanL (l.map f) := by
      intro f
      have := meanL_comb l f f s 0
      simpa using this
    have e2 : ∀ f : ℝ × ℝ → ℝ, stdL (l.map fun a => s * f a) = |s| * stdL (l.map f) := by
      intro f
      unfold stdL
      rw [e1, List.map_map, List.map_map]
      have : (fun v => (v - s * meanL (l.map f)) ^ 2) ∘ (fun a => s * f a)
          = fun a => s ^ 2 * (((fun v => (v - meanL (l.map f)) ^ 2) ∘ f) a) := by
        funext a
        simp only [Function.comp]
        ring
      rw [this]
      have h3 := meanL_comb l ((fun v => (v - meanL (l.map f)) ^ 2) ∘ f) ((fun v => (v - meanL (l.map f)) ^ 2) ∘ f) (s ^ 2) 0
      simp only [zero_mul, add_zero] at h3
      rw [h3, Real.sqrt_mul (sq_nonneg s), Real.sqrt_sq_eq_abs]
    rw [e1, e2]
    congr 2
    · ring
    · ring

/-- The reported error is never negative (for a field of view given in increasing order), and the flux
lies between the smallest and the largest brightness times the area. -/
theorem C43_bounds (rt : ℝ → ℝ → ℝ × ℝ) (B : ℝ → ℝ → ℝ) {fov : Fov} (hx : fov.f0 ≤ fov.f1) (hy : fov.f2 ≤ fov.f3)
    {method : String} (hm : GoodMethod method) {ux uy : List ℝ} (hl : ux.length = uy.length) (hne : 0 < ux.length)
    {nGrid : ℕ} (hn : 0 < nGrid) {lo hi : ℝ} (hB : ∀ a b, lo ≤ B a b ∧ B a b ≤ hi) :
    ∃ F e, microlens rt B fov method ux uy nGrid = .ok (F, e) ∧ 0 ≤ e ∧
      lo * ((fov.f1 - fov.f0) * (fov.f3 - fov.f2)) ≤ F ∧ F ≤ hi * ((fov.f1 - fov.f0) * (fov.f3 - fov.f2)) := by
  refine ⟨_, _, microlens_eq _ _ _ _ _ _ hm, ?_⟩
  have hA : 0 ≤ (fov.f1 - fov.f0) * (fov.f3 - fov.f2) := mul_nonneg (by linarith) (by linarith)
  have hlen : 0 < (samples fov method ux uy nGrid).length := by
    rw [samples_length fov method nGrid hl]
    split
    · exact hne
    · exact Nat.mul_pos hn hn
  generalize samples fov method ux uy nGrid = l at *
  have hr : 0 ≤ rootN method ux nGrid := by
    unfold rootN
    split
    · exact Real.rpow_nonneg (Nat.cast_nonneg _) _
    · exact Nat.cast_nonneg _
  have hb : ∀ (l : List (ℝ × ℝ)) (f : ℝ × ℝ → ℝ), (∀ p, lo ≤ f p ∧ f p ≤ hi) →
      lo * l.length ≤ (l.map f).sum ∧ (l.map f).sum ≤ hi * l.length := by
    intro l f hf
    induction l with
    | nil => simp
    | cons p l ih =>
      simp only [List.map_cons, List.sum_cons, List.length_cons]
      push_cast
      have := hf p
      constructor <;> linarith [ih.1, ih.2]
  have hl' : (0 : ℝ) < l.length := Nat.cast_pos.2 hlen
  have := hb l (fun p => B (rt p.1 p.2).1 (rt p.1 p.2).2) (fun p => hB _ _)
  refine ⟨div_nonneg (mul_nonneg (Real.sqrt_nonneg _) hA) hr, mul_le_mul_of_nonneg_right ?_ hA,
    mul_le_mul_of_nonneg_right ?_ hA⟩
  · unfold meanL
    rw [List.length_map, le_div_iff₀ hl']
    exact this.1
  · unfold meanL
    rw [List.length_map, div_le_iff₀ hl']
    exact this.2

/-- Only the field of view matters: two systems that give the same light inside it give the same
answer. -/
theorem C43_inside (rt rt' : ℝ → ℝ → ℝ × ℝ) (B B' : ℝ → ℝ → ℝ) {fov : Fov} (hx : fov.f0 ≤ fov.f1)
    (hy : fov.f2 ≤ fov.f3) (method : String) {ux uy : List ℝ} (nGrid : ℕ)
    (hux : ∀ u ∈ ux, 0 ≤ u ∧ u ≤ 1) (huy : ∀ u ∈ uy, 0 ≤ u ∧ u ≤ 1)
    (h : ∀ x y, fov.f0 ≤ x → x ≤ fov.f1 → fov.f2 ≤ y → y ≤ fov.f3 →
      B (rt x y).1 (rt x y).2 = B' (rt' x y).1 (rt' x y).2) :
    microlens rt B fov method ux uy nGrid = microlens rt' B' fov method ux uy nGrid := by
  by_cases hm : GoodMethod method
  · rw [microlens_eq _ _ _ _ _ _ hm, microlens_eq _ _ _ _ _ _ hm]
    have : (samples fov method ux uy nGrid).map (fun p => B (rt p.1 p.2).1 (rt p.1 p.2).2)
        = (samples fov method ux uy nGrid).map (fun p => B' (rt' p.1 p.2).1 (rt' p.1 p.2).2) := by
      refine List.map_congr_left fun p hp => ?_
      obtain ⟨⟨h1, h2⟩, h3, h4⟩ := samples_inside hx hy method nGrid hux huy hp
      exact h _ _ h1 h2 h3 h4
    rw [this]
  · unfold GoodMethod at hm
    rw [not_or] at hm
    simp [microlens, hm.1, hm.2]

/-- Other method names raise. -/
theorem C43_method (rt : ℝ → ℝ → ℝ × ℝ) (B : ℝ → ℝ → ℝ) (fov : Fov) (method : String) (ux uy : List ℝ) (nGrid : ℕ) :
    microlens rt B fov method ux uy nGrid = .error .valueError ↔ ¬(method = "mcmc" ∨ method = "grid") := by
  constructor
  · intro h hm
    rw [microlens_eq _ _ _ _ _ _ hm] at h
    cases h
  · intro hm
    rw [not_or] at hm
    simp [microlens, hm.1, hm.2]

/-- The Monte Carlo estimate is unbiased: the estimate from one sample, averaged over the unit square
from which the sample is drawn, is the integral of the brightness over the field of view. -/
theorem C43_unbiased (rt : ℝ → ℝ → ℝ × ℝ) (B : ℝ → ℝ → ℝ) (fov : Fov) (nGrid : ℕ) :
    ∃ F : ℝ → ℝ → ℝ, (∀ u v, microlens rt B fov "mcmc" [u] [v] nGrid = .ok (F u v, 0)) ∧
      ∫ v in (0 : ℝ)..1, ∫ u in (0 : ℝ)..1, F u v
        = ∫ y in fov.f2..fov.f3, ∫ x in fov.f0..fov.f1, B (rt x y).1 (rt x y).2 := by
  refine ⟨fun u v => B (rt (u * (fov.f1 - fov.f0) + fov.f0) (v * (fov.f3 - fov.f2) + fov.f2)).1
      (rt (u * (fov.f1 - fov.f0) + fov.f0) (v * (fov.f3 - fov.f2) + fov.f2)).2
      * ((fov.f1 - fov.f0) * (fov.f3 - fov.f2)), ?_, ?_⟩
  · intro u v
    rw [microlens_eq _ _ _ _ _ _ (Or.inl rfl)]
    simp [samples, meanL, stdL]
  · have h1 : ∀ (g : ℝ → ℝ) (a b : ℝ), (∫ u in (0 : ℝ)..1, g (u * (b - a) + a) * (b - a)) = ∫ x in a..b, g x := by
      intro g a b
      rw [intervalIntegral.integral_mul_const, mul_comm]
      have := intervalIntegral.smul_integral_comp_mul_add (a := 0) (b := 1) g (b - a) a
      simp only [smul_eq_mul, mul_zero, zero_add, mul_one, sub_add_cancel] at this
      rw [← this]
      congr 1
      refine intervalIntegral.integral_congr fun u _ => ?_
      simp only [mul_comm]
    rw [← h1 (fun y => ∫ x in fov.f0..fov.f1, B (rt x y).1 (rt x y).2) fov.f2 fov.f3]
    refine intervalIntegral.integral_congr fun v _ => ?_
    simp only
    rw [← h1 (fun x => B (rt x (v * (fov.f3 - fov.f2) + fov.f2)).1 (rt x (v * (fov.f3 - fov.f2) + fov.f2)).2)
      fov.f0 fov.f1, ← intervalIntegral.integral_mul_const]
    refine intervalIntegral.integral_congr fun u _ => ?_
    ring

/-- The estimate from many samples is the mean of the estimates from the single ones. -/
theorem C43_average (rt : ℝ → ℝ → ℝ × ℝ) (B : ℝ → ℝ → ℝ) (fov : Fov) (nGrid : ℕ) {ux uy : List ℝ}
    (hl : ux.length = uy.length) (F : ℝ → ℝ → ℝ)
    (hF : ∀ u v, microlens rt B fov "mcmc" [u] [v] nGrid = .ok (F u v, 0)) :
    ∃ e, microlens rt B fov "mcmc" ux uy nGrid = .ok ((List.zipWith F ux uy).sum / ux.length, e) := by
  refine microlens_flux _ _ _ _ _ _ (Or.inl rfl) ?_
  have hF' : ∀ u v, F u v = B (rt (u * (fov.f1 - fov.f0) + fov.f0) (v * (fov.f3 - fov.f2) + fov.f2)).1
      (rt (u * (fov.f1 - fov.f0) + fov.f0) (v * (fov.f3 - fov.f2) + fov.f2)).2
      * ((fov.f1 - fov.f0) * (fov.f3 - fov.f2)) := by
    intro u v
    have h := hF u v
    rw [microlens_eq _ _ _ _ _ _ (Or.inl rfl)] at h
    simp only [Except.ok.injEq, Prod.mk.injEq] at h
    rw [← h.1]
    simp [samples, meanL]
  unfold meanL samples
  simp only [if_true, List.length_map, List.length_zip, hl, min_self]
  have : ∀ ux uy : List ℝ, ((List.zip (ux.map fun u => u * (fov.f1 - fov.f0) + fov.f0)
      (uy.map fun u => u * (fov.f3 - fov.f2) + fov.f2)).map fun p => B (rt p.1 p.2).1 (rt p.1 p.2).2).sum
      * ((fov.f1 - fov.f0) * (fov.f3 - fov.f2)) = (List.zipWith F ux uy).sum := by
    intro ux
    induction ux with
    | nil => intro uy; simp
    | cons u ux ih =>
      intro uy
      cases uy with
      | nil => simp
      | cons v uy =>
        simp only [List.map_cons, List.zip_cons_cons, List.sum_cons, List.zipWith_cons_cons, add_mul, ih, hF']
  rw [div_mul_eq_mul_div, this]

/-- Three Monte Carlo samples of the brightness `x + 1` on the unit square. -/
example : ∃ e, microlens (fun a b => (a, b)) (fun a _ => a + 1) ⟨0, 1, 0, 1⟩ "mcmc" [0, 1 / 2, 1] [0, 0, 0] 0
    = .ok (3 / 2, e) := by
  refine microlens_flux _ _ _ _ _ _ (Or.inl rfl) ?_
  simp [samples, meanL]
  norm_num

/-- A uniform source on a 3 by 4 field, both ways. -/
example : microlens (fun a b => (a / 2, b)) (fun _ _ => 5) ⟨-1, 2, 0, 4⟩ "grid" [0] [0] 10 = .ok (60, 0) := by
  have := C43_uniform (fun a b => (a / 2, b)) 5 ⟨-1, 2, 0, 4⟩ (method := "grid") (Or.inr rfl) (ux := [0]) (uy := [0])
    rfl (by simp) (nGrid := 10) (by norm_num)
  rw [this]
  norm_num

example : microlens (fun a b => (a, b)) (fun _ _ => 5) ⟨0, 1, 0, 1⟩ "MCMC" [] [] 10 = .error .valueError :=
  (C43_method _ _ _ _ _ _ _).2 (by decide)

end Caustics

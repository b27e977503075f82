import Verif.Spec.Triangle
import Mathlib.Tactic.FieldSimp
import Mathlib.Tactic.LinearCombination
import Mathlib.Tactic.Linarith
import Mathlib.Tactic.Positivity
import Mathlib.Tactic.NormNum
import Mathlib.Tactic.FinCases

set_option linter.unusedSectionVars false

namespace Caustics

section
variable {K : Type*} [Field K] [LinearOrder K] [IsStrictOrderedRing K]

theorem Tri.at_fst (p : Tri K) (a b : K) :
    (p.at a b).1 = p.p0.1 + a * (p.p1.1 - p.p0.1) + b * (p.p2.1 - p.p0.1) := rfl

theorem Tri.at_snd (p : Tri K) (a b : K) :
    (p.at a b).2 = p.p0.2 + a * (p.p1.2 - p.p0.2) + b * (p.p2.2 - p.p0.2) := rfl

theorem inTri_at {p : Tri K} {a b : K} (ha : 0 ≤ a) (hb : 0 ≤ b) (hab : a + b ≤ 1) :
    InTri p (p.at a b) := by
  refine ⟨1 - a - b, a, b, by linarith, ha, hb, by ring, ?_⟩
  ext
  · simp only [Tri.at_fst, Prod.fst_add, Prod.smul_fst, smul_eq_mul]; ring
  · simp only [Tri.at_snd, Prod.snd_add, Prod.smul_snd, smul_eq_mul]; ring

theorem inTri_iff_at {p : Tri K} {v : K × K} :
    InTri p v ↔ ∃ a b, 0 ≤ a ∧ 0 ≤ b ∧ a + b ≤ 1 ∧ v = p.at a b := by
  constructor
  · rintro ⟨w0, w1, w2, h0, h1, h2, hs, rfl⟩
    refine ⟨w1, w2, h1, h2, by linarith, ?_⟩
    have : w0 = 1 - w1 - w2 := by linear_combination hs
    subst this
    ext
    · simp only [Tri.at_fst, Prod.fst_add, Prod.smul_fst, smul_eq_mul]; ring
    · simp only [Tri.at_snd, Prod.snd_add, Prod.smul_snd, smul_eq_mul]; ring
  · rintro ⟨a, b, ha, hb, hab, rfl⟩
    exact inTri_at ha hb hab

theorem Tri.exists_at {p : Tri K} (h : p.det ≠ 0) (v : K × K) : ∃ a b, v = p.at a b := by
  unfold Tri.det at h
  refine ⟨((v.1 - p.p0.1) * (p.p2.2 - p.p0.2) - (v.2 - p.p0.2) * (p.p2.1 - p.p0.1)) /
      ((p.p1.1 - p.p0.1) * (p.p2.2 - p.p0.2) - (p.p1.2 - p.p0.2) * (p.p2.1 - p.p0.1)),
    -((v.1 - p.p0.1) * (p.p1.2 - p.p0.2) - (v.2 - p.p0.2) * (p.p1.1 - p.p0.1)) /
      ((p.p1.1 - p.p0.1) * (p.p2.2 - p.p0.2) - (p.p1.2 - p.p0.2) * (p.p2.1 - p.p0.1)), ?_⟩
  obtain ⟨⟨x0, y0⟩, ⟨x1, y1⟩, ⟨x2, y2⟩⟩ := p
  obtain ⟨x, y⟩ := v
  simp only at h ⊢
  ext
  · change x = x0 + _ * (x1 - x0) + _ * (x2 - x0)
    rw [div_mul_eq_mul_div, div_mul_eq_mul_div, add_assoc, ← add_div, eq_comm, ← eq_sub_iff_add_eq',
      div_eq_iff h]
    ring
  · change y = y0 + _ * (y1 - y0) + _ * (y2 - y0)
    rw [div_mul_eq_mul_div, div_mul_eq_mul_div, add_assoc, ← add_div, eq_comm, ← eq_sub_iff_add_eq',
      div_eq_iff h]
    ring

theorem contains_at {p : Tri K} (h : p.det ≠ 0) (a b : K) :
    triangleContains p (p.at a b) = true ↔ 0 ≤ a ∧ 0 ≤ b ∧ a + b ≤ 1 := by
  unfold Tri.det at h
  simp only [triangleContains, Prod.fst_sub, Prod.snd_sub, if_neg h,
    Bool.and_eq_true, decide_eq_true_eq]
  rw [Tri.at_fst, Tri.at_snd]
  rw [show ((p.p0.1 + a * (p.p1.1 - p.p0.1) + b * (p.p2.1 - p.p0.1)) * (p.p2.2 - p.p0.2) -
      (p.p0.2 + a * (p.p1.2 - p.p0.2) + b * (p.p2.2 - p.p0.2)) * (p.p2.1 - p.p0.1) -
      (p.p0.1 * (p.p2.2 - p.p0.2) - p.p0.2 * (p.p2.1 - p.p0.1))) /
      ((p.p1.1 - p.p0.1) * (p.p2.2 - p.p0.2) - (p.p1.2 - p.p0.2) * (p.p2.1 - p.p0.1)) = a by
        rw [div_eq_iff h]; ring,
    show (-((p.p0.1 + a * (p.p1.1 - p.p0.1) + b * (p.p2.1 - p.p0.1)) * (p.p1.2 - p.p0.2) -
      (p.p0.2 + a * (p.p1.2 - p.p0.2) + b * (p.p2.2 - p.p0.2)) * (p.p1.1 - p.p0.1) -
      (p.p0.1 * (p.p1.2 - p.p0.2) - p.p0.2 * (p.p1.1 - p.p0.1)))) /
      ((p.p1.1 - p.p0.1) * (p.p2.2 - p.p0.2) - (p.p1.2 - p.p0.2) * (p.p2.1 - p.p0.1)) = b by
        rw [div_eq_iff h]; ring, and_assoc]

/-- Barycentric coordinates are unique. -/
theorem Tri.at_inj {p : Tri K} (h : p.det ≠ 0) {a b a' b' : K} (e : p.at a b = p.at a' b') :
    a = a' ∧ b = b' := by
  have h1 := congrArg Prod.fst e
  have h2 := congrArg Prod.snd e
  rw [Tri.at_fst, Tri.at_fst] at h1
  rw [Tri.at_snd, Tri.at_snd] at h2
  unfold Tri.det at h
  constructor
  · apply mul_right_cancel₀ h
    linear_combination (p.p2.2 - p.p0.2) * h1 - (p.p2.1 - p.p0.1) * h2
  · apply mul_right_cancel₀ h
    linear_combination (p.p1.1 - p.p0.1) * h2 - (p.p1.2 - p.p0.2) * h1

theorem contains_iff {p : Tri K} (h : p.det ≠ 0) (v : K × K) :
    triangleContains p v = true ↔ InTri p v := by
  obtain ⟨a, b, rfl⟩ := Tri.exists_at h v
  rw [contains_at h, inTri_iff_at]
  constructor
  · rintro ⟨ha, hb, hab⟩; exact ⟨a, b, ha, hb, hab, rfl⟩
  · rintro ⟨a', b', ha, hb, hab, e⟩
    obtain ⟨rfl, rfl⟩ := Tri.at_inj h e
    exact ⟨ha, hb, hab⟩

theorem contains_degenerate {p : Tri K} (h : p.det = 0) (v : K × K) :
    triangleContains p v = false := by
  unfold Tri.det at h
  simp only [triangleContains, Prod.fst_sub, Prod.snd_sub, if_pos h]

theorem contains_spec (p : Tri K) (v : K × K) :
    triangleContains p v = true ↔ p.det ≠ 0 ∧ InTri p v := by
  by_cases h : p.det = 0
  · simp [contains_degenerate h, h]
  · rw [contains_iff h]; exact ⟨fun q => ⟨h, q⟩, fun q => q.2⟩

theorem triangleArea_eq (p : Tri K) : triangleArea p = |p.det| / 2 := by
  unfold triangleArea Tri.det
  rw [one_div, inv_mul_eq_div]
  congr 2
  ring

theorem det_affine (a b c d e f : K) (p : Tri K) :
    (p.map (affine a b c d e f)).det = (a * d - b * c) * p.det := by
  simp only [Tri.det, Tri.map, affine]; ring

theorem affine_at (a b c d e f : K) (p : Tri K) (s t : K) :
    affine a b c d e f (p.at s t) = (p.map (affine a b c d e f)).at s t := by
  ext
  · simp only [affine, Tri.at_fst, Tri.at_snd, Tri.map]; ring
  · simp only [affine, Tri.at_fst, Tri.at_snd, Tri.map]; ring

theorem contains_affine {a b c d : K} (h : a * d - b * c ≠ 0) (e f : K) (p : Tri K) (v : K × K) :
    triangleContains (p.map (affine a b c d e f)) (affine a b c d e f v) = triangleContains p v := by
  by_cases hp : p.det = 0
  · rw [contains_degenerate hp, contains_degenerate (by rw [det_affine, hp, mul_zero])]
  · obtain ⟨s, t, rfl⟩ := Tri.exists_at hp v
    rw [affine_at, Bool.eq_iff_iff, contains_at hp,
      contains_at (by rw [det_affine]; exact mul_ne_zero h hp)]

/-! ### Subdivision -/

theorem midpt_fst (p q : K × K) : (midpt p q).1 = (p.1 + q.1) / 2 := rfl

theorem midpt_snd (p q : K × K) : (midpt p q).2 = (p.2 + q.2) / 2 := rfl

theorem det_upsample {p c : Tri K} (h : c ∈ triangleUpsample p) : c.det = p.det / 4 := by
  simp only [triangleUpsample, List.mem_cons, List.not_mem_nil, or_false] at h
  rcases h with rfl | rfl | rfl | rfl <;> simp only [Tri.det, midpt_fst, midpt_snd] <;> field_simp <;>
    ring

theorem upsample_at {p : Tri K} {a b : K} (ha : 0 ≤ a) (hb : 0 ≤ b) (hab : a + b ≤ 1) :
    ∃ c ∈ triangleUpsample p, InTri c (p.at a b) := by
  by_cases h0 : a + b ≤ 1 / 2
  · refine ⟨⟨p.p0, midpt p.p1 p.p0, midpt p.p2 p.p0⟩, by simp [triangleUpsample],
      1 - 2 * a - 2 * b, 2 * a, 2 * b, by linarith, by linarith, by linarith, by ring, ?_⟩
    · ext <;> simp only [Tri.at_fst, Tri.at_snd, Prod.fst_add, Prod.smul_fst, Prod.snd_add,
        Prod.smul_snd, smul_eq_mul, midpt_fst, midpt_snd] <;> field_simp <;> ring
  by_cases h1 : 1 / 2 ≤ a
  · refine ⟨⟨midpt p.p1 p.p0, p.p1, midpt p.p2 p.p1⟩, by simp [triangleUpsample], 2 * (1 - a - b),
      2 * a - 1, 2 * b, by linarith, by linarith, by linarith, by ring, ?_⟩
    ext <;> simp only [Tri.at_fst, Tri.at_snd, Prod.fst_add, Prod.smul_fst, Prod.snd_add,
        Prod.smul_snd, smul_eq_mul, midpt_fst, midpt_snd] <;> field_simp <;> ring
  by_cases h2 : 1 / 2 ≤ b
  · refine ⟨⟨midpt p.p2 p.p0, midpt p.p2 p.p1, p.p2⟩, by simp [triangleUpsample], 2 * (1 - a - b),
      2 * a, 2 * b - 1, by linarith, by linarith, by linarith, by ring, ?_⟩
    ext <;> simp only [Tri.at_fst, Tri.at_snd, Prod.fst_add, Prod.smul_fst, Prod.snd_add,
        Prod.smul_snd, smul_eq_mul, midpt_fst, midpt_snd] <;> field_simp <;> ring
  · push Not at h0 h1 h2
    refine ⟨⟨midpt p.p1 p.p0, midpt p.p2 p.p1, midpt p.p2 p.p0⟩, by simp [triangleUpsample],
      1 - 2 * b, 2 * (a + b) - 1, 1 - 2 * a, by linarith, by linarith, by linarith, by ring, ?_⟩
    ext <;> simp only [Tri.at_fst, Tri.at_snd, Prod.fst_add, Prod.smul_fst, Prod.snd_add,
        Prod.smul_snd, smul_eq_mul, midpt_fst, midpt_snd] <;> field_simp <;> ring

theorem inTri_vertex (p : Tri K) : InTri p p.p0 ∧ InTri p p.p1 ∧ InTri p p.p2 := by
  refine ⟨⟨1, 0, 0, by simp⟩, ⟨0, 1, 0, by simp⟩, ⟨0, 0, 1, by simp⟩⟩

theorem inTri_mid {p : Tri K} {u v : K × K} (hu : InTri p u) (hv : InTri p v) : InTri p (midpt u v) := by
  obtain ⟨a0, a1, a2, h0, h1, h2, hs, rfl⟩ := hu
  obtain ⟨b0, b1, b2, g0, g1, g2, gs, rfl⟩ := hv
  refine ⟨(a0 + b0) / 2, (a1 + b1) / 2, (a2 + b2) / 2, by positivity, by positivity, by positivity,
    by linear_combination hs / 2 + gs / 2, ?_⟩
  ext <;> simp only [Prod.fst_add, Prod.smul_fst, Prod.snd_add,
        Prod.smul_snd, smul_eq_mul, midpt_fst, midpt_snd] <;> ring

/-- A triangle with its vertices in `p` lies in `p`. -/
theorem inTri_mono {p c : Tri K} (h0 : InTri p c.p0) (h1 : InTri p c.p1) (h2 : InTri p c.p2)
    {v : K × K} (hv : InTri c v) : InTri p v := by
  obtain ⟨u0, u1, u2, hu0, hu1, hu2, hus, rfl⟩ := hv
  obtain ⟨a0, a1, a2, ha0, ha1, ha2, has, ea⟩ := h0
  obtain ⟨b0, b1, b2, hb0, hb1, hb2, hbs, eb⟩ := h1
  obtain ⟨c0, c1, c2, hc0, hc1, hc2, hcs, ec⟩ := h2
  refine ⟨u0 * a0 + u1 * b0 + u2 * c0, u0 * a1 + u1 * b1 + u2 * c1, u0 * a2 + u1 * b2 + u2 * c2,
    by positivity, by positivity, by positivity,
    by linear_combination u0 * has + u1 * hbs + u2 * hcs + hus, ?_⟩
  rw [ea, eb, ec]
  ext <;> simp only [Prod.fst_add, Prod.smul_fst, Prod.snd_add,
        Prod.smul_snd, smul_eq_mul] <;> ring

/-! ### Neighbours -/

theorem det_neighbors {p q : Tri K} (h : q ∈ triangleNeighbors p) : q.det = p.det := by
  simp only [triangleNeighbors, List.mem_cons, List.not_mem_nil, or_false] at h
  rcases h with rfl | rfl | rfl | rfl | rfl | rfl | rfl | rfl | rfl | rfl | rfl | rfl | rfl <;>
    simp only [Tri.det, Tri.shift, Prod.fst_add, Prod.snd_add, Prod.fst_neg, Prod.snd_neg,
      Prod.fst_sub, Prod.snd_sub] <;> ring

/-- The translate of `p` by `i` steps along its first and `j` along its second edge, as the code
builds it, contains the points with barycentric coordinates shifted by `(i, j)`. -/
theorem inTri_shift {p : Tri K} {d : K × K} {i j : K}
    (hd : d = i • (p.p1 - p.p0) + j • (p.p2 - p.p0)) {a b : K} :
    0 ≤ a - i → 0 ≤ b - j → a - i + (b - j) ≤ 1 → InTri (p.shift d) (p.at a b) := by
  intro h1 h2 h3
  have : p.at a b = (p.shift d).at (a - i) (b - j) := by
    subst hd
    ext <;> simp only [Tri.at_fst, Tri.at_snd, Tri.shift, Prod.fst_add, Prod.smul_fst, Prod.snd_add,
        Prod.smul_snd, smul_eq_mul, Prod.fst_sub, Prod.snd_sub] <;> ring
  rw [this]
  exact inTri_at h1 h2 h3

/-- The point reflection of `p` at its first vertex. -/
def Tri.refl (p : Tri K) : Tri K :=
  ⟨-(p.p0 - p.p0) + p.p0, -(p.p1 - p.p0) + p.p0, -(p.p2 - p.p0) + p.p0⟩

theorem inTri_refl_shift {p q : Tri K} {i j : K}
    (hq : q = p.refl.shift (i • (p.p1 - p.p0) + j • (p.p2 - p.p0))) {a b : K} :
    0 ≤ i - a → 0 ≤ j - b → i - a + (j - b) ≤ 1 → InTri q (p.at a b) := by
  intro h1 h2 h3
  have : p.at a b = q.at (i - a) (j - b) := by
    subst hq
    ext <;> simp only [Tri.at_fst, Tri.at_snd, Tri.shift, Tri.refl, Prod.fst_add, Prod.smul_fst,
        Prod.snd_add, Prod.smul_snd, smul_eq_mul, Prod.fst_sub, Prod.snd_sub, Prod.fst_neg,
        Prod.snd_neg] <;> ring
  rw [this]
  exact inTri_at h1 h2 h3

theorem mem_neighbors_up {p : Tri K} {i j : K}
    (h : (i = 0 ∧ j = 0) ∨ (i = 1 ∧ j = 0) ∨ (i = -1 ∧ j = 0) ∨ (i = 0 ∧ j = 1) ∨ (i = 0 ∧ j = -1) ∨
      (i = -1 ∧ j = 1) ∨ (i = 1 ∧ j = -1)) :
    p.shift (i • (p.p1 - p.p0) + j • (p.p2 - p.p0)) ∈ triangleNeighbors p := by
  simp only [triangleNeighbors, List.mem_cons, List.not_mem_nil, or_false]
  rcases h with h | h | h | h | h | h | h <;> obtain ⟨rfl, rfl⟩ := h
  · left; simp [Tri.shift]
  · right; left; simp
  · right; right; left; simp
  · right; right; right; left; simp
  · right; right; right; right; left; simp
  · right; right; right; right; right; left; simp
  · right; right; right; right; right; right; left
    congr 1; simp

theorem mem_neighbors_down {p : Tri K} {i j : K}
    (h : (i = 0 ∧ j = 0) ∨ (i = 1 ∧ j = 0) ∨ (i = 2 ∧ j = 0) ∨ (i = 0 ∧ j = 1) ∨ (i = 0 ∧ j = 2) ∨
      (i = 1 ∧ j = 1)) :
    p.refl.shift (i • (p.p1 - p.p0) + j • (p.p2 - p.p0)) ∈ triangleNeighbors p := by
  simp only [triangleNeighbors, List.mem_cons, List.not_mem_nil, or_false]
  right; right; right; right; right; right; right
  rcases h with h | h | h | h | h | h <;> obtain ⟨rfl, rfl⟩ := h
  · left; simp [Tri.shift, Tri.refl]
  · right; left; simp [Tri.refl]
  · right; right; left; simp [Tri.refl, two_smul]
  · right; right; right; left; simp [Tri.refl]
  · right; right; right; right; left; simp [Tri.refl, two_smul]
  · right; right; right; right; right
    simp only [Tri.shift, Tri.refl, one_smul, add_assoc]

theorem neighbors_cover {p : Tri K} {a b : K} (ha : -1 ≤ a) (ha' : a ≤ 2) (hb : -1 ≤ b) (hb' : b ≤ 2)
    (hab : -1 ≤ a + b) (hab' : a + b ≤ 2) : ∃ q ∈ triangleNeighbors p, InTri q (p.at a b) := by
  have up : ∀ i j : K, ((i = 0 ∧ j = 0) ∨ (i = 1 ∧ j = 0) ∨ (i = -1 ∧ j = 0) ∨ (i = 0 ∧ j = 1) ∨
      (i = 0 ∧ j = -1) ∨ (i = -1 ∧ j = 1) ∨ (i = 1 ∧ j = -1)) → 0 ≤ a - i → 0 ≤ b - j →
      a - i + (b - j) ≤ 1 → ∃ q ∈ triangleNeighbors p, InTri q (p.at a b) :=
    fun i j h h1 h2 h3 => ⟨_, mem_neighbors_up h, inTri_shift rfl h1 h2 h3⟩
  have dn : ∀ i j : K, ((i = 0 ∧ j = 0) ∨ (i = 1 ∧ j = 0) ∨ (i = 2 ∧ j = 0) ∨ (i = 0 ∧ j = 1) ∨
      (i = 0 ∧ j = 2) ∨ (i = 1 ∧ j = 1)) → 0 ≤ i - a → 0 ≤ j - b →
      i - a + (j - b) ≤ 1 → ∃ q ∈ triangleNeighbors p, InTri q (p.at a b) :=
    fun i j h h1 h2 h3 => ⟨_, mem_neighbors_down h, inTri_refl_shift rfl h1 h2 h3⟩
  rcases le_total a 0 with h1 | h1 <;> rcases le_total b 0 with h2 | h2 <;>
    rcases le_total a 1 with h3 | h3 <;> rcases le_total b 1 with h4 | h4 <;>
    rcases le_total (a + b) 0 with h5 | h5 <;> rcases le_total (a + b) 1 with h6 | h6 <;>
    first
      | exact up 0 0 (by simp) (by linarith) (by linarith) (by linarith)
      | exact up 1 0 (by simp) (by linarith) (by linarith) (by linarith)
      | exact up (-1) 0 (by simp) (by linarith) (by linarith) (by linarith)
      | exact up 0 1 (by simp) (by linarith) (by linarith) (by linarith)
      | exact up 0 (-1) (by simp) (by linarith) (by linarith) (by linarith)
      | exact up (-1) 1 (by simp) (by linarith) (by linarith) (by linarith)
      | exact up 1 (-1) (by simp) (by linarith) (by linarith) (by linarith)
      | exact dn 0 0 (by simp) (by linarith) (by linarith) (by linarith)
      | exact dn 1 0 (by simp) (by linarith) (by linarith) (by linarith)
      | exact dn 2 0 (by simp) (by linarith) (by linarith) (by linarith)
      | exact dn 0 1 (by simp) (by linarith) (by linarith) (by linarith)
      | exact dn 0 2 (by simp) (by linarith) (by linarith) (by linarith)
      | exact dn 1 1 (by simp) (by linarith) (by linarith) (by linarith)

/-! ### Duplicates -/

end

section
variable {A : Type*} {close : A → A → Bool}

theorem dedupLoop_prefix (kept l : List A) : kept <+: dedupLoop close kept l := by
  induction l generalizing kept with
  | nil => exact List.prefix_rfl
  | cons x xs ih =>
    unfold dedupLoop
    refine List.IsPrefix.trans ?_ (ih _)
    split
    · exact List.prefix_rfl
    · exact List.prefix_append _ _

theorem dedupLoop_sublist (kept l : List A) : (dedupLoop close kept l).Sublist (kept ++ l) := by
  induction l generalizing kept with
  | nil => simp [dedupLoop]
  | cons x xs ih =>
    unfold dedupLoop
    refine (ih _).trans ?_
    split
    · exact List.Sublist.append_left (List.sublist_cons_self x xs) kept
    · simp

theorem dedupLoop_pairwise (kept l : List A)
    (h : kept.Pairwise fun y x => close x y = false) :
    (dedupLoop close kept l).Pairwise fun y x => close x y = false := by
  induction l generalizing kept with
  | nil => exact h
  | cons x xs ih =>
    unfold dedupLoop
    refine ih _ ?_
    split
    · exact h
    · rename_i hx
      rw [List.pairwise_append]
      refine ⟨h, by simp, fun a ha b hb => ?_⟩
      rw [List.mem_singleton] at hb
      subst hb
      simp only [List.any_eq_true, not_exists, not_and, Bool.not_eq_true] at hx
      exact hx a ha

theorem dedupLoop_rep (kept l : List A) :
    ∀ x ∈ l, x ∈ dedupLoop close kept l ∨ ∃ y ∈ dedupLoop close kept l, close x y = true := by
  induction l generalizing kept with
  | nil => simp
  | cons x xs ih =>
    intro y hy
    unfold dedupLoop
    rcases List.mem_cons.1 hy with rfl | hy
    · split
      · rename_i hx
        obtain ⟨z, hz, hc⟩ := List.any_eq_true.1 hx
        exact Or.inr ⟨z, (dedupLoop_prefix _ _).subset hz, hc⟩
      · exact Or.inl ((dedupLoop_prefix _ _).subset (by simp))
    · exact ih _ y hy

theorem dedupLoop_head (x : A) (xs : List A) : ∃ r, dedupLoop close [] (x :: xs) = x :: r := by
  have : [x] <+: dedupLoop close [] (x :: xs) := by
    unfold dedupLoop; simpa using dedupLoop_prefix (close := close) [x] xs
  obtain ⟨r, hr⟩ := this
  exact ⟨r, by simpa using hr.symm⟩

/-- Nothing to remove: the loop returns its input. -/
theorem dedupLoop_id (kept l : List A)
    (h : (kept ++ l).Pairwise fun y x => close x y = false) : dedupLoop close kept l = kept ++ l := by
  induction l generalizing kept with
  | nil => simp [dedupLoop]
  | cons x xs ih =>
    unfold dedupLoop
    have hx : kept.any (close x) = false := by
      rw [List.any_eq_false]
      intro y hy
      rw [List.pairwise_append] at h
      simp [h.2.2 y hy x (by simp)]
    rw [hx]
    have := ih (kept ++ [x]) (by simpa using h)
    simpa using this

end

end Caustics

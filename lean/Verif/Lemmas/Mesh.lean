import Verif.Lemmas.Triangle
import Mathlib.Analysis.Normed.Module.Basic
import Mathlib.Topology.Order.Compact
import Mathlib.Topology.MetricSpace.ProperSpace.Real
import Mathlib.Topology.MetricSpace.ProperSpace
import Mathlib.Analysis.Normed.Order.Lattice
import Mathlib.Algebra.Order.Floor.Ring
import Mathlib.Tactic.NoncommRing
import Mathlib.Tactic.Module

/-!
Interpolation on the triangular mesh that an image search walks over.  A map close to the identity has
a piecewise linear interpolation that takes every value the map takes, nearby: the distance to the value
has a minimum, and at a minimum that is not zero one could walk towards the value.
-/

namespace Caustics

open Metric

/-! ### Piecewise linear interpolation, unit mesh -/

/-- A mesh node. -/
def vtx (p : ℤ × ℤ) : ℝ × ℝ := ((p.1 : ℝ), (p.2 : ℝ))

/-- Hat function of the mesh with edges `(1,0)`, `(0,1)`, `(1,1)`. -/
noncomputable def hexHat (a b : ℝ) : ℝ := max 0 (1 - (max a (max b 0) - min a (min b 0)))

/-- The piecewise linear function with the values of `G` at the nodes in `W`. -/
noncomputable def plMap (W : Finset (ℤ × ℤ)) (G : ℝ × ℝ → ℝ × ℝ) (x : ℝ × ℝ) : ℝ × ℝ :=
  ∑ p ∈ W, hexHat (x.1 - p.1) (x.2 - p.2) • G (vtx p)

theorem continuous_plMap (W : Finset (ℤ × ℤ)) (G : ℝ × ℝ → ℝ × ℝ) : Continuous (plMap W G) := by
  unfold plMap hexHat
  fun_prop

theorem hexHat_zero {a b : ℝ} (h : ¬ (|a| < 1 ∧ |b| < 1 ∧ |a - b| < 1)) : hexHat a b = 0 := by
  unfold hexHat
  refine max_eq_left ?_
  by_contra hc
  apply h
  have h1 : a ≤ max a (max b 0) := le_max_left _ _
  have h2 : b ≤ max a (max b 0) := (le_max_left _ _).trans (le_max_right _ _)
  have h3 : 0 ≤ max a (max b 0) := (le_max_right _ _).trans (le_max_right _ _)
  have h4 : min a (min b 0) ≤ a := min_le_left _ _
  have h5 : min a (min b 0) ≤ b := (min_le_right _ _).trans (min_le_left _ _)
  have h6 : min a (min b 0) ≤ 0 := (min_le_right _ _).trans (min_le_right _ _)
  refine ⟨?_, ?_, ?_⟩ <;> rw [abs_lt] <;> constructor <;> linarith

theorem hexHat_of {a b m k : ℝ} (h1 : max a (max b 0) = m) (h2 : min a (min b 0) = k) (h : m - k ≤ 1) :
    hexHat a b = 1 - (m - k) := by
  unfold hexHat
  rw [h1, h2, max_eq_right (by linarith)]

variable {W : Finset (ℤ × ℤ)} {G : ℝ × ℝ → ℝ × ℝ}

theorem plMap_lower {i j : ℤ} {α β : ℝ} (h0 : 0 ≤ β) (h1 : β ≤ α) (h2 : α ≤ 1)
    (hW : (i, j) ∈ W ∧ (i + 1, j) ∈ W ∧ (i + 1, j + 1) ∈ W) :
    plMap W G (i + α, j + β) = (1 - α) • G (vtx (i, j)) + (α - β) • G (vtx (i + 1, j)) + β • G (vtx (i + 1, j + 1)) := by
  unfold plMap
  rw [← Finset.sum_subset (s₁ := {(i, j), (i + 1, j), (i + 1, j + 1)})]
  · rw [Finset.sum_insert (by simp), Finset.sum_insert (by simp), Finset.sum_singleton, ← add_assoc]
    congr 1
    · congr 1
      · congr 1
        rw [hexHat_of (m := α) (k := 0)]
        · ring
        · simp only [add_sub_cancel_left]
          rw [max_eq_left (a := β) h0, max_eq_left h1]
        · simp only [add_sub_cancel_left]
          rw [min_eq_right (a := β) h0, min_eq_right (by linarith)]
        · linarith
      · congr 1
        rw [hexHat_of (m := β) (k := α - 1)]
        · ring
        · simp only [add_sub_cancel_left]; push_cast
          rw [max_eq_left (a := β) h0, max_eq_right (by linarith)]
        · simp only [add_sub_cancel_left]; push_cast
          rw [min_eq_right (a := β) h0, min_eq_left (by linarith)]; ring
        · linarith
    · congr 1
      rw [hexHat_of (m := 0) (k := β - 1)]
      · ring
      · push_cast
        rw [max_eq_right (b := (0 : ℝ)) (by linarith), max_eq_right (by linarith)]
      · push_cast
        rw [min_eq_left (b := (0 : ℝ)) (by linarith), min_eq_right (by linarith)]; ring
      · linarith
  · intro p hp
    simp only [Finset.mem_insert, Finset.mem_singleton] at hp
    rcases hp with rfl | rfl | rfl
    exacts [hW.1, hW.2.1, hW.2.2]
  · intro p _ hp
    rw [hexHat_zero, zero_smul]
    rintro ⟨ha, hb, hc⟩
    apply hp
    obtain ⟨k, l⟩ := p
    simp only [abs_lt] at ha hb hc
    have e1 : i - 1 < k := by exact_mod_cast (by push_cast; linarith : ((i - 1 : ℤ) : ℝ) < k)
    have e2 : k < i + 2 := by exact_mod_cast (by push_cast; linarith : ((k : ℤ) : ℝ) < (i + 2 : ℤ))
    have e3 : j - 1 < l := by exact_mod_cast (by push_cast; linarith : ((j - 1 : ℤ) : ℝ) < l)
    have e4 : l < j + 2 := by exact_mod_cast (by push_cast; linarith : ((l : ℤ) : ℝ) < (j + 2 : ℤ))
    have e5 : i - j - 1 < k - l := by exact_mod_cast (by push_cast; linarith : ((i - j - 1 : ℤ) : ℝ) < (k - l : ℤ))
    simp only [Finset.mem_insert, Finset.mem_singleton, Prod.mk.injEq]
    omega

theorem plMap_upper {i j : ℤ} {α β : ℝ} (h0 : 0 ≤ α) (h1 : α ≤ β) (h2 : β ≤ 1)
    (hW : (i, j) ∈ W ∧ (i, j + 1) ∈ W ∧ (i + 1, j + 1) ∈ W) :
    plMap W G (i + α, j + β) = (1 - β) • G (vtx (i, j)) + (β - α) • G (vtx (i, j + 1)) + α • G (vtx (i + 1, j + 1)) := by
  unfold plMap
  rw [← Finset.sum_subset (s₁ := {(i, j), (i, j + 1), (i + 1, j + 1)})]
  · rw [Finset.sum_insert (by simp), Finset.sum_insert (by simp), Finset.sum_singleton, ← add_assoc]
    congr 1
    · congr 1
      · congr 1
        rw [hexHat_of (m := β) (k := 0)]
        · ring
        · simp only [add_sub_cancel_left]
          rw [max_eq_left (a := β) (by linarith), max_eq_right h1]
        · simp only [add_sub_cancel_left]
          rw [min_eq_right (a := β) (by linarith), min_eq_right (by linarith)]
        · linarith
      · congr 1
        rw [hexHat_of (m := α) (k := β - 1)]
        · ring
        · simp only [add_sub_cancel_left]; push_cast
          rw [max_eq_right (b := (0 : ℝ)) (by linarith), max_eq_left (by linarith)]
        · simp only [add_sub_cancel_left]; push_cast
          rw [min_eq_left (b := (0 : ℝ)) (by linarith), min_eq_right (by linarith)]; ring
        · linarith
    · congr 1
      rw [hexHat_of (m := 0) (k := α - 1)]
      · ring
      · push_cast
        rw [max_eq_right (b := (0 : ℝ)) (by linarith), max_eq_right (by linarith)]
      · push_cast
        rw [min_eq_left (b := (0 : ℝ)) (by linarith), min_eq_left (by linarith)]; ring
      · linarith
  · intro p hp
    simp only [Finset.mem_insert, Finset.mem_singleton] at hp
    rcases hp with rfl | rfl | rfl
    exacts [hW.1, hW.2.1, hW.2.2]
  · intro p _ hp
    rw [hexHat_zero, zero_smul]
    rintro ⟨ha, hb, hc⟩
    apply hp
    obtain ⟨k, l⟩ := p
    simp only [abs_lt] at ha hb hc
    have e1 : i - 1 < k := by exact_mod_cast (by push_cast; linarith : ((i - 1 : ℤ) : ℝ) < k)
    have e2 : k < i + 2 := by exact_mod_cast (by push_cast; linarith : ((k : ℤ) : ℝ) < (i + 2 : ℤ))
    have e3 : j - 1 < l := by exact_mod_cast (by push_cast; linarith : ((j - 1 : ℤ) : ℝ) < l)
    have e4 : l < j + 2 := by exact_mod_cast (by push_cast; linarith : ((l : ℤ) : ℝ) < (j + 2 : ℤ))
    have e5 : k - l < i - j + 1 := by exact_mod_cast (by push_cast; linarith : ((k - l : ℤ) : ℝ) < (i - j + 1 : ℤ))
    simp only [Finset.mem_insert, Finset.mem_singleton, Prod.mk.injEq]
    omega

/-! ### The three nodes of a mesh triangle -/

/-- An edge of the mesh. -/
def IsEdge (d : ℤ × ℤ) : Prop :=
  d = (1, 0) ∨ d = (0, 1) ∨ d = (1, 1) ∨ d = (-1, 0) ∨ d = (0, -1) ∨ d = (-1, -1)

theorem IsEdge.neg {d : ℤ × ℤ} (h : IsEdge d) : IsEdge (-d) := by
  rcases h with rfl | rfl | rfl | rfl | rfl | rfl <;> simp [IsEdge]

/-- Three nodes, any two of them joined by an edge. -/
def MeshIdx (a b c : ℤ × ℤ) : Prop := IsEdge (b - a) ∧ IsEdge (c - a) ∧ IsEdge (c - b)

/-- They are the corners of the lower or the upper half of a cell, in some order. -/
theorem MeshIdx.shape {a b c : ℤ × ℤ} (h : MeshIdx a b c) : ∃ i j : ℤ,
    (∃ m : ℤ × ℤ, (m = (i + 1, j) ∨ m = (i, j + 1)) ∧
      ((a = (i, j) ∧ b = m ∧ c = (i + 1, j + 1)) ∨ (a = (i, j) ∧ c = m ∧ b = (i + 1, j + 1)) ∨
       (b = (i, j) ∧ a = m ∧ c = (i + 1, j + 1)) ∨ (b = (i, j) ∧ c = m ∧ a = (i + 1, j + 1)) ∨
       (c = (i, j) ∧ a = m ∧ b = (i + 1, j + 1)) ∨ (c = (i, j) ∧ b = m ∧ a = (i + 1, j + 1)))) := by
  obtain ⟨a1, a2⟩ := a
  obtain ⟨b1, b2⟩ := b
  obtain ⟨c1, c2⟩ := c
  obtain ⟨h1, h2, h3⟩ := h
  simp only [IsEdge, Prod.mk_sub_mk, Prod.mk.injEq] at h1 h2 h3
  have fin : ∀ (i j : ℤ) (m : ℤ × ℤ), (m = (i + 1, j) ∨ m = (i, j + 1)) →
      ((a1 = i ∧ a2 = j ∧ b1 = m.1 ∧ b2 = m.2 ∧ c1 = i + 1 ∧ c2 = j + 1) ∨
       (a1 = i ∧ a2 = j ∧ c1 = m.1 ∧ c2 = m.2 ∧ b1 = i + 1 ∧ b2 = j + 1) ∨
       (b1 = i ∧ b2 = j ∧ a1 = m.1 ∧ a2 = m.2 ∧ c1 = i + 1 ∧ c2 = j + 1) ∨
       (b1 = i ∧ b2 = j ∧ c1 = m.1 ∧ c2 = m.2 ∧ a1 = i + 1 ∧ a2 = j + 1) ∨
       (c1 = i ∧ c2 = j ∧ a1 = m.1 ∧ a2 = m.2 ∧ b1 = i + 1 ∧ b2 = j + 1) ∨
       (c1 = i ∧ c2 = j ∧ b1 = m.1 ∧ b2 = m.2 ∧ a1 = i + 1 ∧ a2 = j + 1)) →
      ∃ i j : ℤ, (∃ m : ℤ × ℤ, (m = (i + 1, j) ∨ m = (i, j + 1)) ∧
      (((a1, a2) = (i, j) ∧ (b1, b2) = m ∧ (c1, c2) = (i + 1, j + 1)) ∨ ((a1, a2) = (i, j) ∧ (c1, c2) = m ∧ (b1, b2) = (i + 1, j + 1)) ∨
       ((b1, b2) = (i, j) ∧ (a1, a2) = m ∧ (c1, c2) = (i + 1, j + 1)) ∨ ((b1, b2) = (i, j) ∧ (c1, c2) = m ∧ (a1, a2) = (i + 1, j + 1)) ∨
       ((c1, c2) = (i, j) ∧ (a1, a2) = m ∧ (b1, b2) = (i + 1, j + 1)) ∨ ((c1, c2) = (i, j) ∧ (b1, b2) = m ∧ (a1, a2) = (i + 1, j + 1)))) := by
    intro i j m hm h
    refine ⟨i, j, m, hm, ?_⟩
    simpa only [Prod.ext_iff, and_assoc] using h
  rcases h1 with h1 | h1 | h1 | h1 | h1 | h1 <;> rcases h2 with h2 | h2 | h2 | h2 | h2 | h2 <;>
    first
      | (exfalso; omega)
      | exact fin a1 a2 (a1 + 1, a2) (Or.inl rfl) (by omega)
      | exact fin a1 a2 (a1, a2 + 1) (Or.inr rfl) (by omega)
      | exact fin (a1 - 1) a2 (a1 - 1 + 1, a2) (Or.inl rfl) (by omega)
      | exact fin (a1 - 1) (a2 - 1) (a1 - 1 + 1, a2 - 1) (Or.inl rfl) (by omega)
      | exact fin (a1 - 1) (a2 - 1) (a1 - 1, a2 - 1 + 1) (Or.inr rfl) (by omega)
      | exact fin a1 (a2 - 1) (a1, a2 - 1 + 1) (Or.inr rfl) (by omega)

/-- Interpolation is linear on every mesh triangle. -/
theorem plMap_mesh {a b c : ℤ × ℤ} (h : MeshIdx a b c) (hW : a ∈ W ∧ b ∈ W ∧ c ∈ W) {w0 w1 w2 : ℝ}
    (h0 : 0 ≤ w0) (h1 : 0 ≤ w1) (h2 : 0 ≤ w2) (hs : w0 + w1 + w2 = 1) :
    plMap W G (w0 • vtx a + w1 • vtx b + w2 • vtx c) = w0 • G (vtx a) + w1 • G (vtx b) + w2 • G (vtx c) := by
  have low : ∀ (i j : ℤ) (u v w : ℝ), 0 ≤ u → 0 ≤ v → 0 ≤ w → u + v + w = 1 →
      (i, j) ∈ W → (i + 1, j) ∈ W → (i + 1, j + 1) ∈ W →
      plMap W G (u • vtx (i, j) + v • vtx (i + 1, j) + w • vtx (i + 1, j + 1))
        = u • G (vtx (i, j)) + v • G (vtx (i + 1, j)) + w • G (vtx (i + 1, j + 1)) := by
    intro i j u v w hu hv hw hs' m1 m2 m3
    have := plMap_lower (G := G) (i := i) (j := j) (α := v + w) (β := w) hw (by linarith) (by linarith) ⟨m1, m2, m3⟩
    rw [show (1 - (v + w) : ℝ) = u by linarith, show v + w - w = v by ring] at this
    rw [← this]
    congr 1
    have hu' : u = 1 - v - w := by linarith
    ext <;> simp [vtx, hu'] <;> ring
  have upp : ∀ (i j : ℤ) (u v w : ℝ), 0 ≤ u → 0 ≤ v → 0 ≤ w → u + v + w = 1 →
      (i, j) ∈ W → (i, j + 1) ∈ W → (i + 1, j + 1) ∈ W →
      plMap W G (u • vtx (i, j) + v • vtx (i, j + 1) + w • vtx (i + 1, j + 1))
        = u • G (vtx (i, j)) + v • G (vtx (i, j + 1)) + w • G (vtx (i + 1, j + 1)) := by
    intro i j u v w hu hv hw hs' m1 m2 m3
    have := plMap_upper (G := G) (i := i) (j := j) (α := w) (β := v + w) hw (by linarith) (by linarith) ⟨m1, m2, m3⟩
    rw [show (1 - (v + w) : ℝ) = u by linarith, show v + w - w = v by ring] at this
    rw [← this]
    congr 1
    have hu' : u = 1 - v - w := by linarith
    ext <;> simp [vtx, hu'] <;> ring
  have key : ∀ (i j : ℤ) (m : ℤ × ℤ) (u v w : ℝ), (m = (i + 1, j) ∨ m = (i, j + 1)) → 0 ≤ u → 0 ≤ v → 0 ≤ w → u + v + w = 1 →
      (i, j) ∈ W → m ∈ W → (i + 1, j + 1) ∈ W →
      plMap W G (u • vtx (i, j) + v • vtx m + w • vtx (i + 1, j + 1))
        = u • G (vtx (i, j)) + v • G (vtx m) + w • G (vtx (i + 1, j + 1)) := by
    rintro i j m u v w (rfl | rfl)
    · exact low i j u v w
    · exact upp i j u v w
  obtain ⟨i, j, m, hm, h⟩ := h.shape
  obtain ⟨ha, hb, hc⟩ := hW
  rcases h with ⟨rfl, rfl, rfl⟩ | ⟨rfl, rfl, rfl⟩ | ⟨rfl, rfl, rfl⟩ | ⟨rfl, rfl, rfl⟩ | ⟨rfl, rfl, rfl⟩ | ⟨rfl, rfl, rfl⟩
  · exact key i j _ w0 w1 w2 hm h0 h1 h2 (by linarith) ha hb hc
  · have := key i j _ w0 w2 w1 hm h0 h2 h1 (by linarith) ha hc hb
    rw [add_right_comm, this, add_right_comm]
  · have := key i j _ w1 w0 w2 hm h1 h0 h2 (by linarith) hb ha hc
    rw [add_comm (w0 • _), this, add_comm (w1 • _)]
  · have := key i j _ w1 w2 w0 hm h1 h2 h0 (by linarith) hb hc ha
    rw [add_assoc, add_comm (w0 • _), this, ← add_comm (w0 • _), add_assoc]
  · have := key i j _ w2 w0 w1 hm h2 h0 h1 (by linarith) hc ha hb
    rw [add_comm, ← add_assoc, this, add_assoc, add_comm]
  · have := key i j _ w2 w1 w0 hm h2 h1 h0 (by linarith) hc hb ha
    rw [add_comm, add_comm (w0 • _), ← add_assoc, this, add_comm, add_comm (w2 • _), ← add_assoc]

/-! ### Short walks stay in one triangle -/

theorem ray_cell (a d : ℝ) : ∃ i : ℤ, ∃ t0 > 0, ∀ t, 0 ≤ t → t ≤ t0 → (i : ℝ) ≤ a + t * d ∧ a + t * d ≤ i + 1 := by
  rcases le_total 0 d with hd | hd
  · have h1 := Int.floor_le a
    have h2 := Int.lt_floor_add_one a
    refine ⟨⌊a⌋, (⌊a⌋ + 1 - a) / (d + 1), div_pos (by linarith) (by linarith), fun t h0 ht => ?_⟩
    rw [le_div_iff₀ (by linarith)] at ht
    constructor <;> nlinarith
  · have h1 := Int.le_ceil a
    have h2 := Int.ceil_lt_add_one a
    refine ⟨⌈a⌉ - 1, (a - (⌈a⌉ - 1)) / (-d + 1), div_pos (by linarith) (by linarith), fun t h0 ht => ?_⟩
    rw [le_div_iff₀ (by linarith)] at ht
    push_cast
    constructor <;> nlinarith

theorem ray_sign (c d : ℝ) : ∃ t0 > 0, (∀ t, 0 ≤ t → t ≤ t0 → 0 ≤ c + t * d) ∨ (∀ t, 0 ≤ t → t ≤ t0 → c + t * d ≤ 0) := by
  rcases lt_trichotomy c 0 with hc | rfl | hc
  · refine ⟨-c / (|d| + 1), by have := abs_nonneg d; exact div_pos (by linarith) (by linarith), Or.inr fun t h0 ht => ?_⟩
    rw [le_div_iff₀ (by positivity)] at ht
    nlinarith [le_abs_self d, neg_abs_le d]
  · rcases le_total 0 d with hd | hd
    · exact ⟨1, one_pos, Or.inl fun t h0 _ => by nlinarith⟩
    · exact ⟨1, one_pos, Or.inr fun t h0 _ => by nlinarith⟩
  · refine ⟨c / (|d| + 1), by have := abs_nonneg d; exact div_pos (by linarith) (by linarith), Or.inl fun t h0 ht => ?_⟩
    rw [le_div_iff₀ (by positivity)] at ht
    nlinarith [le_abs_self d, neg_abs_le d]

/-! ### Values taken by the interpolation -/

/-- `G` differs from a translation by at most the fraction `ε` of the distance. -/
def NearId (G : ℝ × ℝ → ℝ × ℝ) (ε : ℝ) (c : ℝ × ℝ) (r : ℝ) : Prop :=
  ∀ p ∈ closedBall c r, ∀ q ∈ closedBall c r, ‖G p - G q - (p - q)‖ ≤ ε * ‖p - q‖

/-- The nodes used near `c`. -/
def Covers (W : Finset (ℤ × ℤ)) (c : ℝ × ℝ) (r : ℝ) : Prop := ∀ p : ℤ × ℤ, vtx p ∈ closedBall c r → p ∈ W

theorem exists_covers (c : ℝ × ℝ) (r : ℝ) : ∃ W, Covers W c r := by
  refine ⟨Finset.Icc ⌈c.1 - r⌉ ⌊c.1 + r⌋ ×ˢ Finset.Icc ⌈c.2 - r⌉ ⌊c.2 + r⌋, fun p hp => ?_⟩
  rw [mem_closedBall, dist_eq_norm, Prod.norm_def, max_le_iff] at hp
  simp only [vtx, Prod.fst_sub, Prod.snd_sub, Real.norm_eq_abs, abs_le] at hp
  simp only [Finset.mem_product, Finset.mem_Icc, Int.ceil_le, Int.le_floor]
  refine ⟨⟨?_, ?_⟩, ?_, ?_⟩ <;> linarith [hp.1.1, hp.1.2, hp.2.1, hp.2.2]

/-- A point of a mesh triangle is within one of each corner. -/
theorem norm_vtx_sub {a b c : ℤ × ℤ} (h : MeshIdx a b c) {w0 w1 w2 : ℝ}
    (h0 : 0 ≤ w0) (h1 : 0 ≤ w1) (h2 : 0 ≤ w2) (hs : w0 + w1 + w2 = 1) :
    let x := w0 • vtx a + w1 • vtx b + w2 • vtx c
    ‖vtx a - x‖ ≤ 1 ∧ ‖vtx b - x‖ ≤ 1 ∧ ‖vtx c - x‖ ≤ 1 := by
  intro x
  have hn : ∀ p q : ℤ × ℤ, IsEdge (q - p) →
      ‖vtx p - vtx q‖ ≤ 1 := by
    rintro ⟨p1, p2⟩ ⟨q1, q2⟩ h
    simp only [IsEdge, Prod.mk_sub_mk, Prod.mk.injEq] at h
    rw [Prod.norm_def, max_le_iff]
    simp only [vtx, Prod.fst_sub, Prod.snd_sub, Real.norm_eq_abs]
    have e1 : |(p1 - q1 : ℤ)| ≤ 1 := by rw [abs_le]; omega
    have e2 : |(p2 - q2 : ℤ)| ≤ 1 := by rw [abs_le]; omega
    exact ⟨by exact_mod_cast e1, by exact_mod_cast e2⟩
  obtain ⟨hab, hac, hbc⟩ := h
  have nab := hn a b hab
  have nac := hn a c hac
  have nbc := hn b c hbc
  have hw : w0 = 1 - w1 - w2 := by linarith
  refine ⟨?_, ?_, ?_⟩
  · rw [show vtx a - x = w1 • (vtx a - vtx b) + w2 • (vtx a - vtx c) by simp only [x, hw]; module]
    refine (norm_add_le _ _).trans ?_
    rw [norm_smul, norm_smul, Real.norm_of_nonneg h1, Real.norm_of_nonneg h2]
    nlinarith
  · rw [show vtx b - x = w0 • (vtx b - vtx a) + w2 • (vtx b - vtx c) by
      simp only [x, show w1 = 1 - w0 - w2 by linarith]; module]
    refine (norm_add_le _ _).trans ?_
    rw [norm_smul, norm_smul, Real.norm_of_nonneg h0, Real.norm_of_nonneg h2, norm_sub_rev (vtx b) (vtx a)]
    nlinarith
  · rw [show vtx c - x = w0 • (vtx c - vtx a) + w1 • (vtx c - vtx b) by
      simp only [x, show w2 = 1 - w0 - w1 by linarith]; module]
    refine (norm_add_le _ _).trans ?_
    rw [norm_smul, norm_smul, Real.norm_of_nonneg h0, Real.norm_of_nonneg h1, norm_sub_rev (vtx c) (vtx a),
      norm_sub_rev (vtx c) (vtx b)]
    nlinarith

/-- The interpolated value differs from the map by at most `ε`. -/
theorem interp_error {ε : ℝ} {c0 : ℝ × ℝ} {r : ℝ} (hG : NearId G ε c0 (r + 1)) (hε : 0 ≤ ε) {a b c : ℤ × ℤ} (h : MeshIdx a b c)
    {w0 w1 w2 : ℝ} (h0 : 0 ≤ w0) (h1 : 0 ≤ w1) (h2 : 0 ≤ w2) (hs : w0 + w1 + w2 = 1)
    (hx : w0 • vtx a + w1 • vtx b + w2 • vtx c ∈ closedBall c0 r) :
    ‖w0 • G (vtx a) + w1 • G (vtx b) + w2 • G (vtx c) - G (w0 • vtx a + w1 • vtx b + w2 • vtx c)‖ ≤ ε := by
  obtain ⟨na, nb, nc⟩ := norm_vtx_sub h h0 h1 h2 hs
  set x := w0 • vtx a + w1 • vtx b + w2 • vtx c with hxd
  have hxm : x ∈ closedBall c0 (r + 1) := closedBall_subset_closedBall (by linarith) hx
  have mem : ∀ p, ‖p - x‖ ≤ 1 → p ∈ closedBall c0 (r + 1) := by
    intro p hp
    rw [mem_closedBall] at hx ⊢
    rw [← dist_eq_norm] at hp
    linarith [dist_triangle p x c0]
  have ea := (hG _ (mem _ na) _ hxm).trans (mul_le_of_le_one_right hε na)
  have eb := (hG _ (mem _ nb) _ hxm).trans (mul_le_of_le_one_right hε nb)
  have ec := (hG _ (mem _ nc) _ hxm).trans (mul_le_of_le_one_right hε nc)
  have : w0 • G (vtx a) + w1 • G (vtx b) + w2 • G (vtx c) - G x
      = w0 • (G (vtx a) - G x - (vtx a - x)) + w1 • (G (vtx b) - G x - (vtx b - x)) + w2 • (G (vtx c) - G x - (vtx c - x)) := by
    have e : w0 • (vtx a - x) + w1 • (vtx b - x) + w2 • (vtx c - x) = 0 := by
      have : w0 • (vtx a - x) + w1 • (vtx b - x) + w2 • (vtx c - x) = w0 • vtx a + w1 • vtx b + w2 • vtx c - (w0 + w1 + w2) • x := by
        module
      rw [this, hs, one_smul, hxd, sub_self]
    have e2 : G x = (w0 + w1 + w2) • G x := by rw [hs, one_smul]
    calc _ = w0 • G (vtx a) + w1 • G (vtx b) + w2 • G (vtx c) - (w0 + w1 + w2) • G x := by rw [← e2]
      _ = w0 • (G (vtx a) - G x - (vtx a - x)) + w1 • (G (vtx b) - G x - (vtx b - x)) + w2 • (G (vtx c) - G x - (vtx c - x))
          + (w0 • (vtx a - x) + w1 • (vtx b - x) + w2 • (vtx c - x)) := by module
      _ = _ := by rw [e, add_zero]
  rw [this]
  refine (norm_add_le _ _).trans ((add_le_add_left (norm_add_le _ _) _).trans ?_)
  rw [norm_smul, norm_smul, norm_smul, Real.norm_of_nonneg h0, Real.norm_of_nonneg h1, Real.norm_of_nonneg h2]
  nlinarith [mul_le_mul_of_nonneg_left ea h0, mul_le_mul_of_nonneg_left eb h1, mul_le_mul_of_nonneg_left ec h2]

/-- Every point lies in a mesh triangle. -/
theorem exists_mesh (x : ℝ × ℝ) : ∃ (a b c : ℤ × ℤ) (w0 w1 w2 : ℝ), MeshIdx a b c ∧ 0 ≤ w0 ∧ 0 ≤ w1 ∧ 0 ≤ w2 ∧
    w0 + w1 + w2 = 1 ∧ x = w0 • vtx a + w1 • vtx b + w2 • vtx c := by
  have a1 := Int.floor_le x.1
  have a2 := (Int.lt_floor_add_one x.1).le
  have b1 := Int.floor_le x.2
  have b2 := (Int.lt_floor_add_one x.2).le
  rcases le_total (x.2 - ⌊x.2⌋) (x.1 - ⌊x.1⌋) with h | h
  · refine ⟨(⌊x.1⌋, ⌊x.2⌋), (⌊x.1⌋ + 1, ⌊x.2⌋), (⌊x.1⌋ + 1, ⌊x.2⌋ + 1), 1 - (x.1 - ⌊x.1⌋), x.1 - ⌊x.1⌋ - (x.2 - ⌊x.2⌋), x.2 - ⌊x.2⌋,
      by simp [MeshIdx, IsEdge], by linarith, by linarith, by linarith, by ring, ?_⟩
    ext <;> simp only [vtx, Prod.fst_add, Prod.snd_add, Prod.smul_fst, Prod.smul_snd, smul_eq_mul] <;> push_cast <;> ring
  · refine ⟨(⌊x.1⌋, ⌊x.2⌋), (⌊x.1⌋, ⌊x.2⌋ + 1), (⌊x.1⌋ + 1, ⌊x.2⌋ + 1), 1 - (x.2 - ⌊x.2⌋), x.2 - ⌊x.2⌋ - (x.1 - ⌊x.1⌋), x.1 - ⌊x.1⌋,
      by simp [MeshIdx, IsEdge], by linarith, by linarith, by linarith, by ring, ?_⟩
    ext <;> simp only [vtx, Prod.fst_add, Prod.snd_add, Prod.smul_fst, Prod.smul_snd, smul_eq_mul] <;> push_cast <;> ring

theorem plMap_near {ε : ℝ} {c : ℝ × ℝ} {r : ℝ} (hG : NearId G ε c (r + 1)) (hε : 0 ≤ ε) (hW : Covers W c (r + 1))
    {x : ℝ × ℝ} (hx : x ∈ closedBall c r) : ‖plMap W G x - G x‖ ≤ ε := by
  obtain ⟨a, b, d, w0, w1, w2, hm, h0, h1, h2, hs, rfl⟩ := exists_mesh x
  have mem : ∀ p, ‖vtx p - (w0 • vtx a + w1 • vtx b + w2 • vtx d)‖ ≤ 1 → p ∈ W := by
    intro p hp
    apply hW
    rw [mem_closedBall] at hx ⊢
    rw [← dist_eq_norm] at hp
    linarith [dist_triangle (vtx p) (w0 • vtx a + w1 • vtx b + w2 • vtx d) c]
  obtain ⟨na, nb, nc⟩ := norm_vtx_sub hm h0 h1 h2 hs
  rw [plMap_mesh hm ⟨mem _ na, mem _ nb, mem _ nc⟩ h0 h1 h2 hs]
  exact interp_error hG hε hm h0 h1 h2 hs hx

/-- In a short step the interpolation moves as the identity does, up to the fraction `2 ε`. -/
theorem plMap_step {ε : ℝ} {c : ℝ × ℝ} {r : ℝ} (hG : NearId G ε c (r + 1)) (hε : 0 ≤ ε) (hW : Covers W c (r + 1))
    {x d : ℝ × ℝ} (hx : x ∈ closedBall c r) :
    ∃ t0 > 0, ∀ t, 0 ≤ t → t ≤ t0 → ‖plMap W G (x + t • d) - plMap W G x - t • d‖ ≤ 2 * ε * (t * ‖d‖) := by
  obtain ⟨i, ti, hti, hi⟩ := ray_cell x.1 d.1
  obtain ⟨j, tj, htj, hj⟩ := ray_cell x.2 d.2
  obtain ⟨tk, htk, hk⟩ := ray_sign (x.1 - i - (x.2 - j)) (d.1 - d.2)
  refine ⟨min ti (min tj tk), by positivity, fun t h0 ht => ?_⟩
  have h1 : t ≤ ti := ht.trans (min_le_left _ _)
  have h2 : t ≤ tj := ht.trans ((min_le_right _ _).trans (min_le_left _ _))
  have h3 : t ≤ tk := ht.trans ((min_le_right _ _).trans (min_le_right _ _))
  have i0 := hi 0 le_rfl hti.le
  have j0 := hj 0 le_rfl htj.le
  have it := hi t h0 h1
  have jt := hj t h0 h2
  rw [zero_mul, add_zero] at i0 j0
  have mem : ∀ p : ℤ × ℤ, (p.1 = i ∨ p.1 = i + 1) → (p.2 = j ∨ p.2 = j + 1) → vtx p ∈ closedBall c (r + 1) := by
    intro p hp1 hp2
    have hn : ‖vtx p - x‖ ≤ 1 := by
      rw [Prod.norm_def, max_le_iff]
      simp only [vtx, Prod.fst_sub, Prod.snd_sub, Real.norm_eq_abs, abs_le]
      constructor
      · rcases hp1 with h | h <;> rw [h] <;> push_cast <;> constructor <;> linarith [i0.1, i0.2]
      · rcases hp2 with h | h <;> rw [h] <;> push_cast <;> constructor <;> linarith [j0.1, j0.2]
    rw [mem_closedBall] at hx ⊢
    rw [← dist_eq_norm] at hn
    linarith [dist_triangle (vtx p) x c]
  have d1 : |t * d.1| ≤ t * ‖d‖ := by
    rw [abs_mul, abs_of_nonneg h0]; exact mul_le_mul_of_nonneg_left (norm_fst_le d) h0
  have d2 : |t * d.2| ≤ t * ‖d‖ := by
    rw [abs_mul, abs_of_nonneg h0]; exact mul_le_mul_of_nonneg_left (norm_snd_le d) h0
  have ex : x = ((i : ℝ) + (x.1 - i), (j : ℝ) + (x.2 - j)) := by ext <;> simp
  have et : x + t • d = ((i : ℝ) + (x.1 + t * d.1 - i), (j : ℝ) + (x.2 + t * d.2 - j)) := by ext <;> simp
  have fin : ∀ (A B : ℝ × ℝ), ‖A‖ ≤ ε → ‖B‖ ≤ ε → ‖(t * d.1) • A + (t * d.2) • B‖ ≤ 2 * ε * (t * ‖d‖) := by
    intro A B hA hB
    refine (norm_add_le _ _).trans ?_
    rw [norm_smul, norm_smul, Real.norm_eq_abs, Real.norm_eq_abs]
    have := mul_le_mul d1 hA (norm_nonneg _) (by positivity)
    have := mul_le_mul d2 hB (norm_nonneg _) (by positivity)
    linarith
  have unit : ∀ p q : ℤ × ℤ, vtx p ∈ closedBall c (r + 1) → vtx q ∈ closedBall c (r + 1) → (p - q = (1, 0) ∨ p - q = (0, 1)) →
      ‖G (vtx p) - G (vtx q) - (vtx p - vtx q)‖ ≤ ε := by
    intro p q hp hq hpq
    refine (hG _ hp _ hq).trans (mul_le_of_le_one_right hε ?_)
    have : vtx p - vtx q = vtx (p - q) := by simp [vtx]
    rw [this]
    rcases hpq with h | h <;> rw [h] <;> simp [vtx, Prod.norm_def]
  rcases hk with hk | hk
  · have k0 := hk 0 le_rfl htk.le
    have kt := hk t h0 h3
    have hw : (i, j) ∈ W ∧ (i + 1, j) ∈ W ∧ (i + 1, j + 1) ∈ W :=
      ⟨hW _ (mem _ (by simp) (by simp)), hW _ (mem _ (by simp) (by simp)), hW _ (mem _ (by simp) (by simp))⟩
    have px := plMap_lower (G := G) (i := i) (j := j) (α := x.1 - i) (β := x.2 - j) (by linarith) (by linarith) (by linarith) hw
    have pt := plMap_lower (G := G) (i := i) (j := j) (α := x.1 + t * d.1 - i) (β := x.2 + t * d.2 - j)
      (by linarith) (by linarith) (by linarith) hw
    rw [← ex] at px
    rw [← et] at pt
    rw [px, pt]
    have := fin _ _ (unit (i + 1, j) (i, j) (mem _ (by simp) (by simp)) (mem _ (by simp) (by simp)) (by simp))
      (unit (i + 1, j + 1) (i + 1, j) (mem _ (by simp) (by simp)) (mem _ (by simp) (by simp)) (by simp))
    refine le_of_eq_of_le (congrArg _ ?_) this
    have e1 : vtx (i + 1, j) - vtx (i, j) = (1, 0) := by simp [vtx]
    have e2 : vtx (i + 1, j + 1) - vtx (i + 1, j) = (0, 1) := by simp [vtx]
    rw [e1, e2]
    ext <;> simp <;> ring
  · have k0 := hk 0 le_rfl htk.le
    have kt := hk t h0 h3
    have hw : (i, j) ∈ W ∧ (i, j + 1) ∈ W ∧ (i + 1, j + 1) ∈ W :=
      ⟨hW _ (mem _ (by simp) (by simp)), hW _ (mem _ (by simp) (by simp)), hW _ (mem _ (by simp) (by simp))⟩
    have px := plMap_upper (G := G) (i := i) (j := j) (α := x.1 - i) (β := x.2 - j) (by linarith) (by linarith) (by linarith) hw
    have pt := plMap_upper (G := G) (i := i) (j := j) (α := x.1 + t * d.1 - i) (β := x.2 + t * d.2 - j)
      (by linarith) (by linarith) (by linarith) hw
    rw [← ex] at px
    rw [← et] at pt
    rw [px, pt]
    have := fin _ _ (unit (i + 1, j + 1) (i, j + 1) (mem _ (by simp) (by simp)) (mem _ (by simp) (by simp)) (by simp))
      (unit (i, j + 1) (i, j) (mem _ (by simp) (by simp)) (mem _ (by simp) (by simp)) (by simp))
    refine le_of_eq_of_le (congrArg _ ?_) this
    have e1 : vtx (i + 1, j + 1) - vtx (i, j + 1) = (1, 0) := by simp [vtx]
    have e2 : vtx (i, j + 1) - vtx (i, j) = (0, 1) := by simp [vtx]
    rw [e1, e2]
    ext <;> simp <;> ring

/-- A value that the map comes close to at `c` is taken by the interpolation near `c`. -/
theorem plMap_surj {ε η ρ : ℝ} {c s : ℝ × ℝ} (hG : NearId G ε c (ρ + 1)) (hε : 0 ≤ ε) (hε2 : 2 * ε < 1)
    (hW : Covers W c (ρ + 1)) (hρ : 0 ≤ ρ) (hη : ‖G c - s‖ ≤ η) (hb : 2 * η + 2 * ε < ρ * (1 - ε)) :
    ∃ x, ‖x - c‖ < ρ ∧ plMap W G x = s := by
  have hc : c ∈ closedBall c ρ := mem_closedBall_self hρ
  obtain ⟨x, hx, hmin⟩ := (isCompact_closedBall c ρ).exists_isMinOn ⟨c, hc⟩
    (f := fun x => ‖plMap W G x - s‖) (((continuous_plMap W G).sub continuous_const).norm.continuousOn)
  have hxc : ‖plMap W G x - s‖ ≤ ε + η := by
    refine (hmin hc).trans ?_
    have := plMap_near hG hε hW hc
    calc ‖plMap W G c - s‖ = ‖(plMap W G c - G c) + (G c - s)‖ := by congr 1; abel
      _ ≤ _ := (norm_add_le _ _).trans (add_le_add this hη)
  have hlt : ‖x - c‖ < ρ := by
    have e1 := plMap_near hG hε hW hx
    have sub : closedBall c ρ ⊆ closedBall c (ρ + 1) := closedBall_subset_closedBall (by linarith)
    have e2 := hG x (sub hx) c (sub hc)
    have : ‖x - c‖ ≤ ‖plMap W G x - s‖ + ‖plMap W G x - G x‖ + ‖G x - G c - (x - c)‖ + ‖G c - s‖ := by
      calc ‖x - c‖ = ‖(plMap W G x - s) - (plMap W G x - G x) - (G x - G c - (x - c)) - (G c - s)‖ := by congr 1; abel
        _ ≤ _ := (norm_sub_le _ _).trans (add_le_add_left ((norm_sub_le _ _).trans (add_le_add_left (norm_sub_le _ _) _)) _)
    by_contra hge
    rw [not_lt] at hge
    have hxr : ‖x - c‖ ≤ ρ := by rw [← dist_eq_norm]; exact hx
    have hxe : ‖x - c‖ = ρ := le_antisymm hxr hge
    rw [hxe] at this e2
    nlinarith
  refine ⟨x, hlt, ?_⟩
  by_contra hne
  have hd : 0 < ‖s - plMap W G x‖ := norm_pos_iff.2 (sub_ne_zero.2 (Ne.symm hne))
  set d := s - plMap W G x with hdd
  obtain ⟨t0, ht0, hstep⟩ := plMap_step hG hε hW (d := d) hx
  obtain ⟨t, htp, htle, ht1, htb⟩ : ∃ t : ℝ, 0 < t ∧ t ≤ t0 ∧ t ≤ 1 ∧ t * ‖d‖ ≤ ρ - ‖x - c‖ := by
    have : 0 < ρ - ‖x - c‖ := by linarith
    refine ⟨min t0 (min 1 ((ρ - ‖x - c‖) / ‖d‖)), by positivity, min_le_left _ _, (min_le_right _ _).trans (min_le_left _ _), ?_⟩
    rw [← le_div_iff₀ hd]
    exact (min_le_right _ _).trans (min_le_right _ _)
  have hmem : x + t • d ∈ closedBall c ρ := by
    rw [mem_closedBall, dist_eq_norm, show x + t • d - c = (x - c) + t • d by abel]
    refine (norm_add_le _ _).trans ?_
    rw [norm_smul, Real.norm_of_nonneg htp.le]
    linarith
  have h1 : ‖plMap W G x - s‖ ≤ ‖plMap W G (x + t • d) - s‖ := hmin hmem
  have h2 : ‖plMap W G (x + t • d) - s‖ ≤ 2 * ε * (t * ‖d‖) + (1 - t) * ‖d‖ := by
    have : plMap W G (x + t • d) - s = (plMap W G (x + t • d) - plMap W G x - t • d) - (1 - t) • d := by
      rw [sub_smul, one_smul, hdd]; abel
    rw [this]
    refine (norm_sub_le _ _).trans (add_le_add (hstep t htp.le htle) ?_)
    rw [norm_smul, Real.norm_of_nonneg (by linarith)]
  rw [norm_sub_rev, ← hdd] at h1
  have : 0 < t * ‖d‖ := by positivity
  nlinarith

end Caustics

import Verif.Lemmas.Mesh
import Verif.Lemmas.ForwardRaytrace
import Verif.Props.Triangle

/-! The image search on a map close to the identity: candidates stay on the mesh and near the image. -/

namespace Caustics

open Metric

/-! ### Meshes of any spacing -/

/-- A node of the mesh with origin `o` and spacing `δ`. -/
noncomputable def meshNode (o : ℝ × ℝ) (δ : ℝ) (p : ℤ × ℤ) : ℝ × ℝ := o + δ • vtx p

/-- A triangle of that mesh. -/
def OnMesh (o : ℝ × ℝ) (δ : ℝ) (t : Tri ℝ) : Prop :=
  ∃ a b c, MeshIdx a b c ∧ t = ⟨meshNode o δ a, meshNode o δ b, meshNode o δ c⟩

theorem vtx_sub (p q : ℤ × ℤ) : vtx (p - q) = vtx p - vtx q := by simp [vtx]

theorem vtx_add (p q : ℤ × ℤ) : vtx (p + q) = vtx p + vtx q := by simp [vtx]

theorem meshIdx_shift {a b c : ℤ × ℤ} (h : MeshIdx a b c) (d : ℤ × ℤ) : MeshIdx (a + d) (b + d) (c + d) := by
  simpa only [MeshIdx, add_sub_add_right_eq_sub] using h

theorem meshIdx_refl {a b c : ℤ × ℤ} (h : MeshIdx a b c) (d : ℤ × ℤ) : MeshIdx (d - a) (d - b) (d - c) := by
  obtain ⟨h1, h2, h3⟩ := h
  refine ⟨?_, ?_, ?_⟩
  · rw [show d - b - (d - a) = -(b - a) by abel]; exact h1.neg
  · rw [show d - c - (d - a) = -(c - a) by abel]; exact h2.neg
  · rw [show d - c - (d - b) = -(c - b) by abel]; exact h3.neg

theorem OnMesh.neighbors {o : ℝ × ℝ} {δ : ℝ} {t q : Tri ℝ} (h : OnMesh o δ t) (hq : q ∈ triangleNeighbors t) : OnMesh o δ q := by
  obtain ⟨a, b, c, hm, rfl⟩ := h
  have sh : ∀ (d : ℤ × ℤ) (t : Tri ℝ), t = ⟨meshNode o δ (a + d), meshNode o δ (b + d), meshNode o δ (c + d)⟩ → OnMesh o δ t :=
    fun d t ht => ⟨_, _, _, meshIdx_shift hm d, ht⟩
  have rf : ∀ (d : ℤ × ℤ) (t : Tri ℝ), t = ⟨meshNode o δ (d - a), meshNode o δ (d - b), meshNode o δ (d - c)⟩ → OnMesh o δ t :=
    fun d t ht => ⟨_, _, _, meshIdx_refl hm d, ht⟩
  simp only [triangleNeighbors, List.mem_cons, List.not_mem_nil, or_false] at hq
  rcases hq with rfl | rfl | rfl | rfl | rfl | rfl | rfl | rfl | rfl | rfl | rfl | rfl | rfl
  · exact ⟨a, b, c, hm, rfl⟩
  · refine sh (b - a) _ ?_
    simp only [Tri.shift, meshNode, vtx_add, vtx_sub, Tri.mk.injEq]; refine ⟨?_, ?_, ?_⟩ <;> module
  · refine sh (-(b - a)) _ ?_
    simp only [Tri.shift, meshNode, ← sub_eq_add_neg, vtx_sub, Tri.mk.injEq]; refine ⟨?_, ?_, ?_⟩ <;> module
  · refine sh (c - a) _ ?_
    simp only [Tri.shift, meshNode, vtx_add, vtx_sub, Tri.mk.injEq]; refine ⟨?_, ?_, ?_⟩ <;> module
  · refine sh (-(c - a)) _ ?_
    simp only [Tri.shift, meshNode, ← sub_eq_add_neg, vtx_sub, Tri.mk.injEq]; refine ⟨?_, ?_, ?_⟩ <;> module
  · refine sh (c - b) _ ?_
    simp only [Tri.shift, meshNode, vtx_add, vtx_sub, Tri.mk.injEq]; refine ⟨?_, ?_, ?_⟩ <;> module
  · refine sh (-(c - b)) _ ?_
    simp only [Tri.shift, meshNode, ← sub_eq_add_neg, vtx_sub, Tri.mk.injEq]; refine ⟨?_, ?_, ?_⟩ <;> module
  · refine rf (a + a) _ ?_
    simp only [meshNode, vtx_add, vtx_sub, Tri.mk.injEq]; refine ⟨?_, ?_, ?_⟩ <;> module
  · refine rf (a + b) _ ?_
    simp only [Tri.shift, meshNode, vtx_add, vtx_sub, Tri.mk.injEq]; refine ⟨?_, ?_, ?_⟩ <;> module
  · refine rf (b + b) _ ?_
    simp only [Tri.shift, meshNode, vtx_add, vtx_sub, Tri.mk.injEq]; refine ⟨?_, ?_, ?_⟩ <;> module
  · refine rf (a + c) _ ?_
    simp only [Tri.shift, meshNode, vtx_add, vtx_sub, Tri.mk.injEq]; refine ⟨?_, ?_, ?_⟩ <;> module
  · refine rf (c + c) _ ?_
    simp only [Tri.shift, meshNode, vtx_add, vtx_sub, Tri.mk.injEq]; refine ⟨?_, ?_, ?_⟩ <;> module
  · refine rf (b + c) _ ?_
    simp only [Tri.shift, meshNode, vtx_add, vtx_sub, Tri.mk.injEq]; refine ⟨?_, ?_, ?_⟩ <;> module

theorem midpt_meshNode (o : ℝ × ℝ) (δ : ℝ) (p q : ℤ × ℤ) :
    midpt (meshNode o δ p) (meshNode o δ q) = meshNode o (δ / 2) (p + q) := by
  ext <;> simp [midpt, meshNode, vtx] <;> ring

theorem meshNode_half (o : ℝ × ℝ) (δ : ℝ) (p : ℤ × ℤ) : meshNode o δ p = meshNode o (δ / 2) (p + p) := by
  ext <;> simp [meshNode, vtx] <;> ring

theorem OnMesh.upsample {o : ℝ × ℝ} {δ : ℝ} {t q : Tri ℝ} (h : OnMesh o δ t) (hq : q ∈ triangleUpsample t) : OnMesh o (δ / 2) q := by
  obtain ⟨a, b, c, hm, rfl⟩ := h
  simp only [triangleUpsample, midpt_meshNode, List.mem_cons, List.not_mem_nil, or_false] at hq
  have key : ∀ a' b' c' : ℤ × ℤ, MeshIdx a' b' c' → q = ⟨meshNode o (δ / 2) a', meshNode o (δ / 2) b', meshNode o (δ / 2) c'⟩ →
      OnMesh o (δ / 2) q := fun a' b' c' h1 h2 => ⟨a', b', c', h1, h2⟩
  obtain ⟨h1, h2, h3⟩ := hm
  rcases hq with hq | hq | hq | hq
  · refine key _ _ _ ?_ (by rw [hq, meshNode_half o δ])
    refine ⟨?_, ?_, ?_⟩
    · rw [show b + a - (a + a) = b - a by abel]; exact h1
    · rw [show c + a - (a + a) = c - a by abel]; exact h2
    · rw [show c + a - (b + a) = c - b by abel]; exact h3
  · refine key _ _ _ ?_ (by rw [hq, meshNode_half o δ])
    refine ⟨?_, ?_, ?_⟩
    · rw [show b + b - (b + a) = b - a by abel]; exact h1
    · rw [show c + b - (b + a) = c - a by abel]; exact h2
    · rw [show c + b - (b + b) = c - b by abel]; exact h3
  · refine key _ _ _ ?_ (by rw [hq, meshNode_half o δ])
    refine ⟨?_, ?_, ?_⟩
    · rw [show c + b - (c + a) = b - a by abel]; exact h1
    · rw [show c + c - (c + a) = c - a by abel]; exact h2
    · rw [show c + c - (c + b) = c - b by abel]; exact h3
  · refine key _ _ _ ?_ hq
    refine ⟨?_, ?_, ?_⟩
    · rw [show c + b - (b + a) = c - a by abel]; exact h2
    · rw [show c + a - (b + a) = c - b by abel]; exact h3
    · rw [show c + a - (c + b) = -(b - a) by abel]; exact h1.neg

theorem onMesh_initial {x0 y0 fov : ℝ} {n : ℕ} {t : Tri ℝ} (h : t ∈ initialTriangles x0 y0 fov n) :
    OnMesh (x0 - fov / 2, y0 - fov / 2) (fov / ((n : ℝ) - 1)) t := by
  obtain ⟨i, j, -, -, h⟩ := mem_initial.1 h
  have e : ∀ k l : ℕ, gridNode x0 y0 fov n k l = meshNode (x0 - fov / 2, y0 - fov / 2) (fov / ((n : ℝ) - 1)) ((k : ℤ), (l : ℤ)) := by
    intro k l
    ext <;> simp [gridNode, meshNode, vtx] <;> ring
  rcases h with rfl | rfl <;> refine ⟨_, _, _, ?_, by rw [e, e, e]⟩ <;> simp [MeshIdx, IsEdge]

theorem onMesh_refine {o : ℝ × ℝ} {δ : ℝ} {E : List (Tri ℝ)} (h : ∀ t ∈ E, OnMesh o δ t) :
    ∀ t ∈ refineTriangles E, OnMesh o (δ / 2) t := by
  intro t ht
  obtain ⟨q, hq, hc⟩ := List.mem_flatMap.1 ht
  have hq' := (C32_triangles (E.flatMap triangleNeighbors)).1.subset hq
  obtain ⟨p, hp, hn⟩ := List.mem_flatMap.1 hq'
  exact ((h p hp).neighbors hn).upsample hc

theorem onMesh_candidates {o : ℝ × ℝ} {δ : ℝ} {E0 : List (Tri ℝ)} (h : ∀ t ∈ E0, OnMesh o δ t) (R : ℝ × ℝ → ℝ × ℝ) (s : ℝ × ℝ)
    (k : ℕ) : ∀ t ∈ candidates R s E0 k, OnMesh o (δ / 2 ^ k) t := by
  induction k with
  | zero => intro t ht; simpa using h t (mem_locate.1 ht).1
  | succ k ih =>
    intro t ht
    have := onMesh_refine ih t (mem_locate.1 ht).1
    rwa [div_div, ← pow_succ] at this

/-- With a spacing above the tolerance nothing but exact duplicates is removed. -/
theorem dedup_mesh {o : ℝ × ℝ} {δ : ℝ} (hδ : 1 / 10 ^ 6 < δ) {l : List (Tri ℝ)} (h : ∀ t ∈ l, OnMesh o δ t) {t : Tri ℝ} (ht : t ∈ l) :
    t ∈ removeTriangleDuplicates l := by
  obtain ⟨hsub, -, -, hrep⟩ := C32_triangles l
  obtain ⟨q, hq, hc⟩ := hrep t ht
  obtain ⟨a, b, c, -, rfl⟩ := h t ht
  obtain ⟨a', b', c', -, e⟩ := h q (hsub.subset hq)
  have int : ∀ m m' : ℤ, |δ * (m : ℝ) - δ * m'| < 1 / 10 ^ 6 → m = m' := by
    intro m m' hm
    rw [← mul_sub, abs_mul, abs_of_pos (by linarith [show (0 : ℝ) < 1 / 10 ^ 6 by norm_num])] at hm
    have hlt : |(m : ℝ) - m'| < 1 := by
      by_contra hge
      rw [not_lt] at hge
      nlinarith [abs_nonneg ((m : ℝ) - m'), show (0 : ℝ) < 1 / 10 ^ 6 by norm_num]
    have : |m - m'| < 1 := by exact_mod_cast hlt
    rw [Int.abs_lt_one_iff] at this
    omega
  have node : ∀ p p' : ℤ × ℤ, |(meshNode o δ p).1 - (meshNode o δ p').1| < 1 / 10 ^ 6 →
      |(meshNode o δ p).2 - (meshNode o δ p').2| < 1 / 10 ^ 6 → p = p' := by
    intro p p' h1 h2
    simp only [meshNode, vtx, Prod.fst_add, Prod.snd_add, Prod.smul_fst, Prod.smul_snd, smul_eq_mul, add_sub_add_left_eq_sub] at h1 h2
    exact Prod.ext (int _ _ h1) (int _ _ h2)
  subst e
  obtain ⟨⟨h1, h2⟩, ⟨h3, h4⟩, h5, h6⟩ := hc
  obtain rfl := node _ _ h1 h2
  obtain rfl := node _ _ h3 h4
  obtain rfl := node _ _ h5 h6
  exact hq

/-! ### Rescaling -/

variable {F : ℝ × ℝ → ℝ × ℝ} {o v s : ℝ × ℝ} {ε δ : ℝ}

theorem nearId_rescale (hδ : 0 < δ) {c : ℝ × ℝ} {r : ℝ} (h : NearId F ε (o + δ • c) (δ * r)) :
    NearId (fun y => δ⁻¹ • F (o + δ • y)) ε c r := by
  intro p hp q hq
  have mem : ∀ p, p ∈ closedBall c r → o + δ • p ∈ closedBall (o + δ • c) (δ * r) := by
    intro p hp
    rw [mem_closedBall, dist_eq_norm] at hp ⊢
    rw [add_sub_add_left_eq_sub, ← smul_sub, norm_smul, Real.norm_of_nonneg hδ.le]
    exact mul_le_mul_of_nonneg_left hp hδ.le
  have := h _ (mem p hp) _ (mem q hq)
  have e : δ⁻¹ • F (o + δ • p) - δ⁻¹ • F (o + δ • q) - (p - q)
      = δ⁻¹ • (F (o + δ • p) - F (o + δ • q) - ((o + δ • p) - (o + δ • q))) := by
    rw [add_sub_add_left_eq_sub, ← smul_sub δ, smul_sub, smul_sub, smul_smul, inv_mul_cancel₀ hδ.ne', one_smul]
  have e2 : ‖(o + δ • p) - (o + δ • q)‖ = δ * ‖p - q‖ := by
    rw [add_sub_add_left_eq_sub, ← smul_sub, norm_smul, Real.norm_of_nonneg hδ.le]
  show ‖δ⁻¹ • F (o + δ • p) - δ⁻¹ • F (o + δ • q) - (p - q)‖ ≤ _
  rw [e, norm_smul, norm_inv, Real.norm_of_nonneg hδ.le]
  rw [e2] at this
  rw [inv_mul_le_iff₀ hδ]
  linarith

/-- A convex combination of the corners, and of the values there. -/
def MeshWeights (t : Tri ℝ) (x : ℝ × ℝ) (F : ℝ × ℝ → ℝ × ℝ) (z : ℝ × ℝ) : Prop :=
  ∃ w0 w1 w2 : ℝ, 0 ≤ w0 ∧ 0 ≤ w1 ∧ 0 ≤ w2 ∧ w0 + w1 + w2 = 1 ∧ x = w0 • t.p0 + w1 • t.p1 + w2 • t.p2 ∧
    z = w0 • F t.p0 + w1 • F t.p1 + w2 • F t.p2

theorem comb_meshNode (a b c : ℤ × ℤ) {w0 w1 w2 : ℝ} (hs : w0 + w1 + w2 = 1) :
    w0 • meshNode o δ a + w1 • meshNode o δ b + w2 • meshNode o δ c = o + δ • (w0 • vtx a + w1 • vtx b + w2 • vtx c) := by
  simp only [meshNode, show w0 = 1 - w1 - w2 by linarith]
  module

theorem mesh_error (hδ : 0 < δ) (hε : 0 ≤ ε) {r : ℝ} (hF : NearId F ε v (r + δ)) {t : Tri ℝ} (ht : OnMesh o δ t) {x z : ℝ × ℝ}
    (hx : x ∈ closedBall v r) (hw : MeshWeights t x F z) : ‖z - F x‖ ≤ δ * ε := by
  obtain ⟨a, b, c, hm, rfl⟩ := ht
  obtain ⟨w0, w1, w2, h0, h1, h2, hs, rfl, rfl⟩ := hw
  rw [comb_meshNode a b c hs] at hx ⊢
  have ev : v = o + δ • (δ⁻¹ • (v - o)) := by rw [smul_smul, mul_inv_cancel₀ hδ.ne', one_smul]; abel
  have hF' : NearId F ε (o + δ • (δ⁻¹ • (v - o))) (δ * (r / δ + 1)) := by
    rw [← ev, mul_add, mul_div_cancel₀ _ hδ.ne', mul_one]; exact hF
  have hx' : w0 • vtx a + w1 • vtx b + w2 • vtx c ∈ closedBall (δ⁻¹ • (v - o)) (r / δ) := by
    rw [mem_closedBall, dist_eq_norm] at hx ⊢
    rw [le_div_iff₀ hδ, mul_comm, ← Real.norm_of_nonneg hδ.le, ← norm_smul, Real.norm_of_nonneg hδ.le, smul_sub, smul_smul,
      mul_inv_cancel₀ hδ.ne', one_smul]
    refine le_of_eq_of_le (congrArg _ ?_) hx
    abel
  have := interp_error (nearId_rescale hδ hF') hε hm h0 h1 h2 hs hx'
  have e : w0 • δ⁻¹ • F (o + δ • vtx a) + w1 • δ⁻¹ • F (o + δ • vtx b) + w2 • δ⁻¹ • F (o + δ • vtx c)
      - δ⁻¹ • F (o + δ • (w0 • vtx a + w1 • vtx b + w2 • vtx c))
      = δ⁻¹ • (w0 • F (o + δ • vtx a) + w1 • F (o + δ • vtx b) + w2 • F (o + δ • vtx c)
        - F (o + δ • (w0 • vtx a + w1 • vtx b + w2 • vtx c))) := by module
  rw [e, norm_smul, norm_inv, Real.norm_of_nonneg hδ.le, inv_mul_le_iff₀ hδ] at this
  exact this

theorem mesh_surj (hδ : 0 < δ) (hε : 0 ≤ ε) (hε2 : 2 * ε < 1) {c : ℝ × ℝ} {ρ η : ℝ} (hρ : 0 ≤ ρ)
    (hF : NearId F ε c (δ * (ρ + 1))) (hη : ‖F c - s‖ ≤ δ * η) (hb : 2 * η + 2 * ε < ρ * (1 - ε)) (o : ℝ × ℝ) :
    ∃ x, ‖x - c‖ < δ * ρ ∧ ∀ t, OnMesh o δ t → InTri t x → MeshWeights t x F s := by
  have ec : c = o + δ • (δ⁻¹ • (c - o)) := by rw [smul_smul, mul_inv_cancel₀ hδ.ne', one_smul]; abel
  set c' := δ⁻¹ • (c - o) with hc'
  rw [ec] at hF hη
  obtain ⟨W, hW⟩ := exists_covers c' (ρ + 1)
  have hη' : ‖δ⁻¹ • F (o + δ • c') - δ⁻¹ • s‖ ≤ η := by
    rw [← smul_sub, norm_smul, norm_inv, Real.norm_of_nonneg hδ.le, inv_mul_le_iff₀ hδ]
    exact hη
  obtain ⟨y, hy, hs⟩ := plMap_surj (nearId_rescale hδ hF) hε hε2 hW hρ hη' hb
  refine ⟨o + δ • y, ?_, ?_⟩
  · rw [ec, add_sub_add_left_eq_sub, ← smul_sub, norm_smul, Real.norm_of_nonneg hδ.le]
    exact mul_lt_mul_of_pos_left hy hδ
  · rintro t ⟨a, b, d, hm, rfl⟩ ⟨w0, w1, w2, h0, h1, h2, hsum, hx⟩
    refine ⟨w0, w1, w2, h0, h1, h2, hsum, hx, ?_⟩
    simp only at hx ⊢
    rw [comb_meshNode a b d hsum, add_right_inj] at hx
    have hyx : y = w0 • vtx a + w1 • vtx b + w2 • vtx d := by
      have := congrArg (fun z => δ⁻¹ • z) hx
      simpa only [smul_smul, inv_mul_cancel₀ hδ.ne', one_smul] using this
    have mem : ∀ p, ‖vtx p - (w0 • vtx a + w1 • vtx b + w2 • vtx d)‖ ≤ 1 → p ∈ W := by
      intro p hp
      apply hW
      rw [← hyx, ← dist_eq_norm] at hp
      rw [← dist_eq_norm] at hy
      rw [mem_closedBall]
      linarith [dist_triangle (vtx p) y c']
    obtain ⟨na, nb, nd⟩ := norm_vtx_sub hm h0 h1 h2 hsum
    rw [hyx, plMap_mesh hm ⟨mem _ na, mem _ nb, mem _ nd⟩ h0 h1 h2 hsum] at hs
    have := congrArg (fun z => δ • z) hs
    simp only [smul_add, smul_smul, mul_left_comm δ _ δ⁻¹, mul_inv_cancel₀ hδ.ne', mul_one, one_smul] at this
    exact this.symm

/-! ### One round of the search -/

theorem norm_vtx_edge {d : ℤ × ℤ} (h : IsEdge d) : ‖vtx d‖ ≤ 1 := by
  rcases h with rfl | rfl | rfl | rfl | rfl | rfl <;> simp [vtx, Prod.norm_def]

/-- The image of a mesh triangle is not degenerate. -/
theorem mesh_det (hδ : 0 < δ) {r : ℝ} (hF : NearId F (1 / 8) v r) {t : Tri ℝ} (ht : OnMesh o δ t)
    (h0 : t.p0 ∈ closedBall v r) (h1 : t.p1 ∈ closedBall v r) (h2 : t.p2 ∈ closedBall v r) : (t.map F).det ≠ 0 := by
  have n1 := hF _ h1 _ h0
  have n2 := hF _ h2 _ h0
  obtain ⟨a, b, c, ⟨hb, hc, hcb⟩, rfl⟩ := ht
  simp only at n1 n2
  have e1 : meshNode o δ b - meshNode o δ a = δ • vtx (b - a) := by simp only [meshNode, vtx_sub]; module
  have e2 : meshNode o δ c - meshNode o δ a = δ • vtx (c - a) := by simp only [meshNode, vtx_sub]; module
  rw [e1, norm_smul, Real.norm_of_nonneg hδ.le] at n1
  rw [e2, norm_smul, Real.norm_of_nonneg hδ.le] at n2
  have m1 := n1.trans (mul_le_mul_of_nonneg_left (mul_le_of_le_one_right hδ.le (norm_vtx_edge hb)) (by norm_num))
  have m2 := n2.trans (mul_le_mul_of_nonneg_left (mul_le_of_le_one_right hδ.le (norm_vtx_edge hc)) (by norm_num))
  rw [Prod.norm_def, max_le_iff, Real.norm_eq_abs, Real.norm_eq_abs] at m1 m2
  simp only [Tri.det, Tri.map]
  set A := F (meshNode o δ a)
  set B := F (meshNode o δ b)
  set C := F (meshNode o δ c)
  simp only [Prod.fst_sub, Prod.snd_sub, Prod.smul_fst, Prod.smul_snd, smul_eq_mul] at m1 m2
  have hb' : (b - a = (1, 0) ∨ b - a = (0, 1) ∨ b - a = (1, 1) ∨ b - a = (-1, 0) ∨ b - a = (0, -1) ∨ b - a = (-1, -1)) := hb
  have hc' : (c - a = (1, 0) ∨ c - a = (0, 1) ∨ c - a = (1, 1) ∨ c - a = (-1, 0) ∨ c - a = (0, -1) ∨ c - a = (-1, -1)) := hc
  rw [show c - b = (c - a) - (b - a) by abel] at hcb
  generalize b - a = d1 at *
  generalize c - a = d2 at *
  obtain ⟨p, hp⟩ : ∃ p, p = (B.1 - A.1 - δ * (vtx d1).1) / δ := ⟨_, rfl⟩
  obtain ⟨q, hq⟩ : ∃ q, q = (B.2 - A.2 - δ * (vtx d1).2) / δ := ⟨_, rfl⟩
  obtain ⟨p', hp'⟩ : ∃ p, p = (C.1 - A.1 - δ * (vtx d2).1) / δ := ⟨_, rfl⟩
  obtain ⟨q', hq'⟩ : ∃ q, q = (C.2 - A.2 - δ * (vtx d2).2) / δ := ⟨_, rfl⟩
  have small : ∀ x y : ℝ, y = x / δ → |x| ≤ 1 / 8 * δ → |y| ≤ 1 / 8 := by
    rintro x y rfl h
    rw [abs_div, abs_of_pos hδ, div_le_iff₀ hδ]; exact h
  have sp := small _ _ hp m1.1
  have sq := small _ _ hq m1.2
  have sp' := small _ _ hp' m2.1
  have sq' := small _ _ hq' m2.2
  rw [eq_div_iff hδ.ne'] at hp hq hp' hq'
  rw [show B.1 - A.1 = δ * ((vtx d1).1 + p) by linarith, show B.2 - A.2 = δ * ((vtx d1).2 + q) by linarith,
    show C.1 - A.1 = δ * ((vtx d2).1 + p') by linarith, show C.2 - A.2 = δ * ((vtx d2).2 + q') by linarith,
    show δ * ((vtx d1).1 + p) * (δ * ((vtx d2).2 + q')) - δ * ((vtx d1).2 + q) * (δ * ((vtx d2).1 + p'))
      = δ ^ 2 * (((vtx d1).1 + p) * ((vtx d2).2 + q') - ((vtx d1).2 + q) * ((vtx d2).1 + p')) by ring]
  refine mul_ne_zero (pow_ne_zero 2 hδ.ne') ?_
  have b1 : |p * q'| ≤ 1 / 8 * (1 / 8) := by rw [abs_mul]; exact mul_le_mul sp sq' (abs_nonneg _) (by norm_num)
  have b2 : |q * p'| ≤ 1 / 8 * (1 / 8) := by rw [abs_mul]; exact mul_le_mul sq sp' (abs_nonneg _) (by norm_num)
  rw [abs_le] at sp sq sp' sq' b1 b2
  clear hp hq hp' hq' m1 m2 n1 n2 small e1 e2 hb hc
  rcases hb' with rfl | rfl | rfl | rfl | rfl | rfl <;> rcases hc' with rfl | rfl | rfl | rfl | rfl | rfl <;>
    first
      | (exfalso; revert hcb; unfold IsEdge; decide)
      | (simp only [vtx]; push_cast; intro h0; nlinarith [sp.1, sp.2, sq.1, sq.2, sp'.1, sp'.2, sq'.1, sq'.2, b1.1, b1.2, b2.1, b2.2])

/-- Sup-norm distances inside a mesh triangle. -/
theorem mesh_diam (hδ : 0 < δ) {t : Tri ℝ} (ht : OnMesh o δ t) {x : ℝ × ℝ} (hx : InTri t x) :
    ‖t.p0 - x‖ ≤ δ ∧ ‖t.p1 - x‖ ≤ δ ∧ ‖t.p2 - x‖ ≤ δ := by
  obtain ⟨a, b, c, hm, rfl⟩ := ht
  obtain ⟨w0, w1, w2, h0, h1, h2, hs, rfl⟩ := hx
  simp only
  rw [comb_meshNode a b c hs]
  obtain ⟨na, nb, nc⟩ := norm_vtx_sub hm h0 h1 h2 hs
  simp only [meshNode, add_sub_add_left_eq_sub, ← smul_sub, norm_smul, Real.norm_of_nonneg hδ.le]
  exact ⟨mul_le_of_le_one_right hδ.le na, mul_le_of_le_one_right hδ.le nb, mul_le_of_le_one_right hδ.le nc⟩

theorem MeshWeights.inTri {t : Tri ℝ} {x z : ℝ × ℝ} (h : MeshWeights t x F z) : InTri t x := by
  obtain ⟨w0, w1, w2, h0, h1, h2, hs, hx, -⟩ := h
  exact ⟨w0, w1, w2, h0, h1, h2, hs, hx⟩

theorem MeshWeights.contains (hδ : 0 < δ) {r : ℝ} (hF : NearId F (1 / 8) v r) {t : Tri ℝ} (ht : OnMesh o δ t) {x z : ℝ × ℝ}
    (h : MeshWeights t x F z) (hx : ‖x - v‖ + δ ≤ r) : triangleContains (t.map F) z = true := by
  obtain ⟨d0, d1, d2⟩ := mesh_diam hδ ht h.inTri
  have mem : ∀ p, ‖p - x‖ ≤ δ → p ∈ closedBall v r := by
    intro p hp
    rw [mem_closedBall, dist_eq_norm, show p - v = (p - x) + (x - v) by abel]
    exact (norm_add_le _ _).trans (by linarith)
  rw [contains_iff (mesh_det hδ hF ht (mem _ d0) (mem _ d1) (mem _ d2))]
  obtain ⟨w0, w1, w2, h0, h1, h2, hs, -, hz⟩ := h
  exact ⟨w0, w1, w2, h0, h1, h2, hs, hz⟩

/-- Where the interpolation takes the value of the map at `v`. -/
theorem MeshWeights.close (hδ : 0 < δ) {r : ℝ} (hF : NearId F (1 / 8) v r) (hs : F v = s) {t : Tri ℝ} (ht : OnMesh o δ t)
    {x : ℝ × ℝ} (h : MeshWeights t x F s) (hx : ‖x - v‖ + δ ≤ r) : ‖x - v‖ ≤ δ / 7 := by
  have hxm : x ∈ closedBall v (r - δ) := by rw [mem_closedBall, dist_eq_norm]; linarith
  have e1 := mesh_error (ε := 1 / 8) hδ (by norm_num) (r := r - δ) (by rwa [sub_add_cancel]) ht hxm h
  have e2 := hF x (by rw [mem_closedBall, dist_eq_norm]; linarith) v (mem_closedBall_self (by linarith [norm_nonneg (x - v)]))
  rw [hs] at e2
  have : ‖x - v‖ ≤ ‖s - F x‖ + ‖F x - s - (x - v)‖ := by
    calc ‖x - v‖ = ‖-((s - F x) + (F x - s - (x - v)))‖ := by congr 1; abel
      _ ≤ _ := by rw [norm_neg]; exact norm_add_le _ _
  linarith

/-- The neighbours of a mesh triangle cover everything within half a cell of it. -/
theorem mesh_neighbors_cover (hδ : 0 < δ) {t : Tri ℝ} (ht : OnMesh o δ t) {u x : ℝ × ℝ} (hu : InTri t u) (hx : ‖x - u‖ ≤ δ / 2) :
    ∃ q ∈ triangleNeighbors t, InTri q x := by
  obtain ⟨a, b, c, ⟨hb, hc, hcb⟩, rfl⟩ := ht
  obtain ⟨α, β, hα, hβ, hαβ, rfl⟩ := inTri_iff_at.1 hu
  set t : Tri ℝ := ⟨meshNode o δ a, meshNode o δ b, meshNode o δ c⟩ with htd
  have f1 : t.p1 - t.p0 = δ • vtx (b - a) := by simp only [htd, meshNode, vtx_sub]; module
  have f2 : t.p2 - t.p0 = δ • vtx (c - a) := by simp only [htd, meshNode, vtx_sub]; module
  rw [show c - b = (c - a) - (b - a) by abel] at hcb
  generalize b - a = d1 at *
  generalize c - a = d2 at *
  -- coordinates of the displacement along the two edges
  obtain ⟨m, l, hml, h1, h2, h3⟩ : ∃ m l : ℝ, x - t.at α β = m • (t.p1 - t.p0) + l • (t.p2 - t.p0) ∧ |m| ≤ 1 ∧ |l| ≤ 1 ∧ |m + l| ≤ 1 := by
    rw [f1, f2]
    obtain ⟨X, hX⟩ : ∃ X, X = x - t.at α β := ⟨_, rfl⟩
    rw [← hX] at hx ⊢
    have hX1 : |X.1 / δ| ≤ 1 / 2 := by
      rw [abs_div, abs_of_pos hδ, div_le_iff₀ hδ]; have := norm_fst_le X; rw [Real.norm_eq_abs] at this; linarith
    have hX2 : |X.2 / δ| ≤ 1 / 2 := by
      rw [abs_div, abs_of_pos hδ, div_le_iff₀ hδ]; have := norm_snd_le X; rw [Real.norm_eq_abs] at this; linarith
    obtain ⟨y1, hy1⟩ : ∃ y, y = X.1 / δ := ⟨_, rfl⟩
    obtain ⟨y2, hy2⟩ : ∃ y, y = X.2 / δ := ⟨_, rfl⟩
    rw [← hy1] at hX1
    rw [← hy2] at hX2
    rw [eq_div_iff hδ.ne'] at hy1 hy2
    rw [abs_le] at hX1 hX2
    have fin : ∀ m l : ℝ, y1 = m * (vtx d1).1 + l * (vtx d2).1 → y2 = m * (vtx d1).2 + l * (vtx d2).2 →
        (-1 ≤ m ∧ m ≤ 1) → (-1 ≤ l ∧ l ≤ 1) → (-1 ≤ m + l ∧ m + l ≤ 1) →
        ∃ m l : ℝ, X = m • δ • vtx d1 + l • δ • vtx d2 ∧ |m| ≤ 1 ∧ |l| ≤ 1 ∧ |m + l| ≤ 1 := by
      intro m l g1 g2 g3 g4 g5
      refine ⟨m, l, ?_, abs_le.2 g3, abs_le.2 g4, abs_le.2 g5⟩
      ext
      · simp only [Prod.fst_add, Prod.smul_fst, smul_eq_mul]; rw [← hy1, g1]; ring
      · simp only [Prod.snd_add, Prod.smul_snd, smul_eq_mul]; rw [← hy2, g2]; ring
    clear hX hx
    have sol : ∀ m l : ℝ, (y1 = m * (vtx d1).1 + l * (vtx d2).1 ∧ y2 = m * (vtx d1).2 + l * (vtx d2).2) ∧
        ((-1 ≤ m ∧ m ≤ 1) ∧ (-1 ≤ l ∧ l ≤ 1) ∧ (-1 ≤ m + l ∧ m + l ≤ 1)) →
        ∃ m l : ℝ, X = m • δ • vtx d1 + l • δ • vtx d2 ∧ |m| ≤ 1 ∧ |l| ≤ 1 ∧ |m + l| ≤ 1 :=
      fun m l h => fin m l h.1.1 h.1.2 h.2.1 h.2.2.1 h.2.2.2
    rcases hb with e1 | e1 | e1 | e1 | e1 | e1 <;> rcases hc with e2 | e2 | e2 | e2 | e2 | e2 <;>
      first
        | (exfalso; rw [e1, e2] at hcb; revert hcb; unfold IsEdge; decide)
        | exact sol (((vtx d1).1 * (vtx d2).2 - (vtx d1).2 * (vtx d2).1) * (y1 * (vtx d2).2 - y2 * (vtx d2).1))
            (((vtx d1).1 * (vtx d2).2 - (vtx d1).2 * (vtx d2).1) * ((vtx d1).1 * y2 - (vtx d1).2 * y1))
            (by rw [e1, e2]; simp only [vtx]; push_cast; refine ⟨⟨?_, ?_⟩, ⟨?_, ?_⟩, ⟨?_, ?_⟩, ?_, ?_⟩ <;> linarith)
  have ex : x = t.at (α + m) (β + l) := by
    rw [show x = t.at α β + (x - t.at α β) by abel, hml]
    simp only [Tri.at]
    module
  rw [abs_le] at h1 h2 h3
  rw [ex]
  exact neighbors_cover (by linarith) (by linarith) (by linarith) (by linarith) (by linarith) (by linarith)

/-- One round: a candidate near the image has a successor near the image. -/
theorem mesh_step (hδ : 1 / 10 ^ 6 < δ) {r : ℝ} (hF : NearId F (1 / 8) v r) (hr : 2 * δ ≤ r) (hs : F v = s)
    {E : List (Tri ℝ)} (hE : ∀ t ∈ E, OnMesh o δ t) {t : Tri ℝ} (ht : t ∈ E) {u : ℝ × ℝ} (hw : MeshWeights t u F s) (hu : ‖u - v‖ ≤ δ / 7) :
    ∃ c ∈ locate F s (refineTriangles E), ∃ x, MeshWeights c x F s ∧ ‖x - v‖ ≤ δ / 2 / 7 := by
  have hδ0 : 0 < δ := lt_trans (by norm_num) hδ
  have hsub : ∀ r', r' ≤ r - δ / 7 → NearId F (1 / 8) u r' := by
    intro r' hr' p hp q hq
    have mem : ∀ p, p ∈ closedBall u r' → p ∈ closedBall v r := by
      intro p hp
      rw [mem_closedBall] at hp ⊢
      rw [← dist_eq_norm] at hu
      linarith [dist_triangle p u v]
    exact hF p (mem p hp) q (mem q hq)
  have herr : ‖F u - s‖ ≤ δ / 2 * (1 / 4) := by
    rw [norm_sub_rev]
    refine (mesh_error (ε := 1 / 8) hδ0 (by norm_num) (r := r - δ) (by rwa [sub_add_cancel]) (hE t ht) ?_ hw).trans (by linarith)
    rw [mem_closedBall, dist_eq_norm]; linarith
  obtain ⟨x, hx, hxt⟩ := mesh_surj (δ := δ / 2) (ε := 1 / 8) (ρ := 1) (η := 1 / 4) (by linarith) (by norm_num) (by norm_num)
    (by norm_num) (hsub _ (by linarith)) herr (by norm_num) o
  rw [mul_one] at hx
  obtain ⟨q, hq, hqx⟩ := mesh_neighbors_cover hδ0 (hE t ht) hw.inTri hx.le
  obtain ⟨c, hc, hcx⟩ := (C30_cover q x).1 hqx
  have hcm : OnMesh o (δ / 2) c := ((hE t ht).neighbors hq).upsample hc
  have hcw := hxt c hcm hcx
  have hxv : ‖x - v‖ + δ / 2 ≤ r := by
    have : ‖x - v‖ ≤ ‖x - u‖ + ‖u - v‖ := by
      rw [show x - v = (x - u) + (u - v) by abel]; exact norm_add_le _ _
    linarith
  refine ⟨c, mem_locate.2 ⟨?_, hcw.contains (by linarith) hF hcm hxv⟩, x, hcw, hcw.close (by linarith) hF hs hcm hxv⟩
  refine List.mem_flatMap.2 ⟨q, ?_, hc⟩
  refine dedup_mesh hδ (o := o) ?_ (List.mem_flatMap.2 ⟨t, ht, hq⟩)
  intro q' hq'
  obtain ⟨t', ht', hn⟩ := List.mem_flatMap.1 hq'
  exact (hE t' ht').neighbors hn

/-- The first round, for an image not closer than half a cell to the edge of the field. -/
theorem mesh_start {x0 y0 fov : ℝ} {n : ℕ} (hf : 0 < fov) (hn : 2 ≤ n) {r : ℝ} (hF : NearId F (1 / 8) v r)
    (hr : 2 * (fov / ((n : ℝ) - 1)) ≤ r) (hs : F v = s)
    (hx : |v.1 - x0| + fov / ((n : ℝ) - 1) / 2 ≤ fov / 2) (hy : |v.2 - y0| + fov / ((n : ℝ) - 1) / 2 ≤ fov / 2) :
    ∃ c ∈ locate F s (initialTriangles x0 y0 fov n), ∃ x, MeshWeights c x F s ∧ ‖x - v‖ ≤ fov / ((n : ℝ) - 1) / 7 := by
  have hn1 : (0 : ℝ) < (n : ℝ) - 1 := by
    have : (2 : ℝ) ≤ n := by exact_mod_cast hn
    linarith
  set δ := fov / ((n : ℝ) - 1) with hδd
  have hδ : 0 < δ := div_pos hf hn1
  have hF' : NearId F (1 / 8) v (δ * (1 / 2 + 1)) := by
    intro p hp q hq
    have sub : closedBall v (δ * (1 / 2 + 1)) ⊆ closedBall v r := closedBall_subset_closedBall (by linarith)
    exact hF p (sub hp) q (sub hq)
  obtain ⟨x, hxv, hxt⟩ := mesh_surj (s := s) (η := 0) hδ (by norm_num) (by norm_num) (ρ := 1 / 2) (by norm_num) hF'
    (by rw [hs, sub_self, norm_zero, mul_zero]) (by norm_num) (x0 - fov / 2, y0 - fov / 2)
  have h1 := (norm_fst_le (x - v)).trans hxv.le
  have h2 := (norm_snd_le (x - v)).trans hxv.le
  rw [Real.norm_eq_abs, Prod.fst_sub] at h1
  rw [Real.norm_eq_abs, Prod.snd_sub] at h2
  obtain ⟨c, hc, hcx⟩ := initial_cover (v := x) (x0 := x0) (y0 := y0) hf hn
    (by have := abs_sub_le x.1 v.1 x0; linarith) (by have := abs_sub_le x.2 v.2 y0; linarith)
  have hcm := onMesh_initial hc
  have hcw := hxt c hcm hcx
  exact ⟨c, mem_locate.2 ⟨hc, hcw.contains hδ hF hcm (by linarith)⟩, x, hcw, hcw.close hδ hF hs hcm (by linarith)⟩

/-- In every round some candidate is near the image. -/
theorem mesh_candidates {x0 y0 fov : ℝ} {n : ℕ} (hf : 0 < fov) (hn : 2 ≤ n) {r : ℝ} (hF : NearId F (1 / 8) v r)
    (hr : 2 * (fov / ((n : ℝ) - 1)) ≤ r) (hs : F v = s)
    (hx : |v.1 - x0| + fov / ((n : ℝ) - 1) / 2 ≤ fov / 2) (hy : |v.2 - y0| + fov / ((n : ℝ) - 1) / 2 ≤ fov / 2)
    (k : ℕ) (hk : ∀ j < k, 1 / 10 ^ 6 < fov / ((n : ℝ) - 1) / 2 ^ j) :
    ∃ c ∈ candidates F s (initialTriangles x0 y0 fov n) k, ∃ x, MeshWeights c x F s ∧ ‖x - v‖ ≤ fov / ((n : ℝ) - 1) / 2 ^ k / 7 := by
  induction k with
  | zero =>
    rw [pow_zero, div_one]
    exact mesh_start hf hn hF hr hs hx hy
  | succ k ih =>
    obtain ⟨c, hc, u, hw, hu⟩ := ih fun j hj => hk j (by omega)
    have hm := onMesh_candidates (fun t ht => onMesh_initial (x0 := x0) (y0 := y0) (fov := fov) (n := n) ht) F s k
    have hδ := hk k (by omega)
    have hle : fov / ((n : ℝ) - 1) / 2 ^ k ≤ fov / ((n : ℝ) - 1) := by
      refine div_le_self ?_ (one_le_pow₀ (by norm_num))
      have := hk 0 (by omega)
      rw [pow_zero, div_one] at this
      exact le_of_lt (lt_trans (by norm_num) this)
    obtain ⟨c', hc', x, hw', hx'⟩ := mesh_step hδ hF (by linarith) hs hm hc hw hu
    refine ⟨c', hc', x, hw', ?_⟩
    rwa [pow_succ, ← div_div]

end Caustics

import Verif.Lemmas.Multiplane
import Mathlib.Analysis.Normed.Group.Constructions
import Mathlib.Analysis.Normed.Module.Basic
import Mathlib.Topology.Algebra.Order.Field

/-! Thin lenses in a multiplane system: the ray in terms of the reduced deflections. -/

namespace Caustics

/-- Distances grow with redshift. -/
def GrowingDist (dist : ℝ → ℝ) : Prop := (∀ z, 0 < z → 0 < dist z) ∧ ∀ a b, 0 < a → a < b → dist a < dist b

/-- The share of the reduced deflection of a lens at `zl` that has become a displacement at `z`. -/
noncomputable def rayWeight (dist : ℝ → ℝ) (zs zl z : ℝ) : ℝ :=
  (dist z - dist zl) * dist zs / (dist z * (dist zs - dist zl))

theorem rayWeight_mem {dist : ℝ → ℝ} (hd : GrowingDist dist) {zs zl z : ℝ} (h0 : 0 < zl) (h1 : zl < z) (h2 : z ≤ zs) :
    0 ≤ rayWeight dist zs zl z ∧ rayWeight dist zs zl z ≤ 1 := by
  have a := hd.1 zl h0
  have b := hd.2 zl z h0 h1
  have c : dist z ≤ dist zs := by
    rcases h2.eq_or_lt with rfl | h
    · exact le_rfl
    · exact (hd.2 z zs (h0.trans h1) h).le
  have hz : 0 < dist z := a.trans b
  have hls : 0 < dist zs - dist zl := by linarith
  unfold rayWeight
  constructor
  · exact div_nonneg (mul_nonneg (by linarith) (by linarith)) (mul_pos hz hls).le
  · rw [div_le_one (mul_pos hz hls)]
    nlinarith

theorem rayWeight_source {dist : ℝ → ℝ} (hd : GrowingDist dist) {zs zl : ℝ} (h0 : 0 < zl) (h1 : zl < zs) :
    rayWeight dist zs zl zs = 1 := by
  have a := hd.1 zl h0
  have b := hd.2 zl zs h0 h1
  unfold rayWeight
  rw [mul_comm]
  exact div_self (mul_pos (a.trans b) (by linarith)).ne'

theorem plane_weight (e : MPEnv ℝ) (zs : ℝ) (hzs : 1 + zs ≠ 0) (l : ThinLensFn ℝ) (z : ℝ) (p : ℝ × ℝ) :
    (e.dist z - e.dist l.z) / e.dist z * ((l.plane e zs).alpha p.1 p.2).1 =
        (rayWeight e.dist zs l.z z • l.reduced p.1 p.2).1 ∧
      (e.dist z - e.dist l.z) / e.dist z * ((l.plane e zs).alpha p.1 p.2).2 =
        (rayWeight e.dist zs l.z z • l.reduced p.1 p.2).2 := by
  simp only [ThinLensFn.plane, ThinLensFn.physical, physicalFromReduced, MPEnv.angDist, MPEnv.angDist12, rayWeight,
    Prod.smul_fst, Prod.smul_snd, smul_eq_mul]
  rw [div_div_div_cancel_right₀ hzs]
  constructor <;>
  · rw [← mul_assoc, div_mul_div_comm]

theorem list_sum_fst {ι : Type} (l : List ι) (f : ι → ℝ × ℝ) : ((l.map f).sum).1 = (l.map fun i => (f i).1).sum := by
  induction l with
  | nil => rfl
  | cons a l ih => simp [ih]

theorem list_sum_snd {ι : Type} (l : List ι) (f : ι → ℝ × ℝ) : ((l.map f).sum).2 = (l.map fun i => (f i).2).sum := by
  induction l with
  | nil => rfl
  | cons a l ih => simp [ih]

theorem list_norm_sum_le {ι E : Type} [NormedAddCommGroup E] (l : List ι) (f : ι → E) (g : ι → ℝ)
    (h : ∀ i ∈ l, ‖f i‖ ≤ g i) : ‖(l.map f).sum‖ ≤ (l.map g).sum := by
  induction l with
  | nil => simp
  | cons a l ih =>
    simp only [List.map_cons, List.sum_cons]
    exact (norm_add_le _ _).trans (add_le_add (h a (by simp)) (ih fun i hi => h i (by simp [hi])))

/-- The ray of thin lenses. -/
theorem isRay_thin (e : MPEnv ℝ) (zs : ℝ) (hzs : 1 + zs ≠ 0) (ls : List (ThinLensFn ℝ)) (x y : ℝ) (beta : ℝ → ℝ × ℝ)
    (h : IsRay e.dist (ls.map (ThinLensFn.plane e zs)) x y beta) {z : ℝ} (hz : 0 < z) :
    beta z = (x, y) - ((ls.filter fun l => l.z < z).map fun l =>
      rayWeight e.dist zs l.z z • l.reduced (beta l.z).1 (beta l.z).2).sum := by
  obtain ⟨h1, h2⟩ := h z hz
  have hf : (ls.map (ThinLensFn.plane e zs)).filter (fun l => decide (l.z < z)) =
      (ls.filter fun l => decide (l.z < z)).map (ThinLensFn.plane e zs) := by
    rw [List.filter_map]
    rfl
  rw [hf, List.map_map] at h1 h2
  refine Prod.ext ?_ ?_
  · rw [h1, Prod.fst_sub, list_sum_fst]
    congr 2
    refine List.map_congr_left fun l _ => ?_
    exact (plane_weight e zs hzs l z (beta l.z)).1
  · rw [h2, Prod.snd_sub, list_sum_snd]
    congr 2
    refine List.map_congr_left fun l _ => ?_
    exact (plane_weight e zs hzs l z (beta l.z)).2

/-- A lens with its deflection and potential multiplied by `t`. -/
def ThinLensFn.times (t : ℝ) (l : ThinLensFn ℝ) : ThinLensFn ℝ :=
  ⟨l.z, fun x y => t • l.reduced x y, fun x y => t * l.psi x y⟩

/-- As the lenses fade the ray becomes straight. -/
theorem ray_tendsto (e : MPEnv ℝ) (zs : ℝ) (hzs : 1 + zs ≠ 0) (ls : List (ThinLensFn ℝ)) (hpos : ∀ l ∈ ls, 0 < l.z)
    (x y : ℝ) (hc : ∀ l ∈ ls, ContinuousAt (fun p : ℝ × ℝ => l.reduced p.1 p.2) (x, y)) (beta : ℝ → ℝ → ℝ × ℝ)
    (h : ∀ t, IsRay e.dist ((ls.map (ThinLensFn.times t)).map (ThinLensFn.plane e zs)) x y (beta t)) :
    ∀ n : ℕ, ∀ z, 0 < z → (ls.filter fun l => l.z < z).length < n →
      Filter.Tendsto (fun t => beta t z) (nhds 0) (nhds (x, y)) := by
  intro n
  induction n with
  | zero => intro z _ hz; omega
  | succ n ih =>
    intro z hz hlen
    have heq : ∀ t, beta t z = (x, y) - ((ls.filter fun l => l.z < z).map fun l =>
        rayWeight e.dist zs l.z z • t • l.reduced (beta t l.z).1 (beta t l.z).2).sum := by
      intro t
      rw [isRay_thin e zs hzs _ x y _ (h t) hz, List.filter_map, List.map_map]
      rfl
    have hin : ∀ l ∈ ls.filter (fun l => l.z < z), Filter.Tendsto (fun t => beta t l.z) (nhds 0) (nhds (x, y)) := by
      intro l hl
      rw [List.mem_filter] at hl
      refine ih l.z (hpos l hl.1) ?_
      have hlt : l.z < z := by simpa using hl.2
      refine lt_of_lt_of_le ?_ (Nat.lt_succ_iff.1 hlen)
      have hsub : (ls.filter fun m => m.z < l.z).Sublist ((ls.filter fun m => m.z < z)) := by
        have : (ls.filter fun m => decide (m.z < l.z)) = (ls.filter fun m => decide (m.z < z)).filter fun m => decide (m.z < l.z) := by
          rw [List.filter_filter]
          refine List.filter_congr fun m _ => ?_
          rw [Bool.eq_iff_iff]
          simp only [decide_eq_true_eq, Bool.and_eq_true]
          exact ⟨fun h => ⟨h, h.trans hlt⟩, fun h => h.1⟩
        rw [this]
        exact List.filter_sublist
      refine lt_of_le_of_ne hsub.length_le fun heq => ?_
      have h2 := hsub.eq_of_length heq
      have : l ∈ ls.filter fun m => m.z < l.z := by
        rw [h2, List.mem_filter]; exact hl
      simp at this
    have hsum : ∀ L : List (ThinLensFn ℝ), (∀ l ∈ L, l ∈ ls.filter fun l => l.z < z) →
        Filter.Tendsto (fun t => (L.map fun l =>
          rayWeight e.dist zs l.z z • t • l.reduced (beta t l.z).1 (beta t l.z).2).sum) (nhds 0) (nhds 0) := by
      intro L
      induction L with
      | nil => intro _; simp
      | cons l L ihL =>
        intro hL
        have hl := hL l (by simp)
        have h1 := ihL fun m hm => hL m (by simp [hm])
        have h2 : Filter.Tendsto (fun t => l.reduced (beta t l.z).1 (beta t l.z).2) (nhds 0) (nhds (l.reduced x y)) :=
          (hc l (List.mem_filter.1 hl).1).tendsto.comp (hin l hl)
        have h3 : Filter.Tendsto (fun t : ℝ => t • l.reduced (beta t l.z).1 (beta t l.z).2) (nhds 0)
            (nhds ((0 : ℝ) • l.reduced x y)) := Filter.tendsto_id.smul h2
        have h4 := (h3.const_smul (rayWeight e.dist zs l.z z)).add h1
        simpa using h4
    have := (tendsto_const_nhds (x := ((x, y) : ℝ × ℝ)) (f := nhds (0 : ℝ))).sub (hsum _ fun l hl => hl)
    rw [sub_zero] at this
    exact this.congr fun t => (heq t).symm

end Caustics

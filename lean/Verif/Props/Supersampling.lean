import Verif.Props.LensImage
import Mathlib.MeasureTheory.Integral.Prod
import Mathlib.MeasureTheory.Integral.DominatedConvergence
import Mathlib.MeasureTheory.Measure.Lebesgue.Basic
import Mathlib.MeasureTheory.Function.Floor

/-! C101: as `upsample_factor` grows the simulated image tends to the brightness averaged over each pixel. -/

namespace Caustics

open MeasureTheory Set Filter Topology

/-- The brightness on the sky of the scene: the lensed source plus the lens light, as switched on. -/
def SimScene.sky (c : SimScene) (q : ℝ × ℝ) : ℝ :=
  (match c.source with
    | some f => if c.sourceLight then
        (if c.lensSource then f (c.raytrace q.1 q.2).1 (c.raytrace q.1 q.2).2 else f q.1 q.2) else 0
    | none => 0)
  + (match c.lensLight with
    | some f => if c.addLensLight then f q.1 q.2 else 0
    | none => 0)

/-- The square on the sky that pixel `(i, j)` (row, column) covers: pixels of side `pixelscale`, the
`pixels_x` by `pixels_y` of them centred on the field centre. -/
def pixelSquare (cfg : SimCfg) (c : SimScene) (i j : ℕ) : Set (ℝ × ℝ) :=
  Icc (c.x0 + ((j : ℝ) - (cfg.pixelsX : ℝ) / 2) * cfg.pixelscale)
      (c.x0 + ((j : ℝ) + 1 - (cfg.pixelsX : ℝ) / 2) * cfg.pixelscale) ×ˢ
    Icc (c.y0 + ((i : ℝ) - (cfg.pixelsY : ℝ) / 2) * cfg.pixelscale)
      (c.y0 + ((i : ℝ) + 1 - (cfg.pixelsY : ℝ) / 2) * cfg.pixelscale)

/-- A quadrature rule on [-1, 1]: nodes inside, weights non-negative with sum 2.  (Gauss-Legendre rules are
such rules.) -/
structure GoodRule (rule : List (ℝ × ℝ)) : Prop where
  node : ∀ r ∈ rule, |r.1| ≤ 1
  weight : ∀ r ∈ rule, 0 ≤ r.2
  total : (rule.map Prod.snd).sum = 2

/-! ### Step functions -/

theorem floor_cell {l p : ℝ} (hp : 0 < p) {k : ℕ} {x : ℝ} (hx : x ∈ Ico (l + k * p) (l + (k + 1 : ℕ) * p)) :
    ⌊(x - l) / p⌋₊ = k := by
  rw [Nat.floor_eq_iff (div_nonneg (by have : 0 ≤ (k : ℝ) * p := by positivity
                                       linarith [hx.1]) hp.le)]
  have h2 := hx.2
  push_cast at h2
  constructor
  · rw [le_div_iff₀ hp]; linarith [hx.1]
  · rw [div_lt_iff₀ hp]; linarith

theorem cell_floor {l p x : ℝ} (hp : 0 < p) (hx : l ≤ x) :
    x ∈ Ico (l + (⌊(x - l) / p⌋₊ : ℕ) * p) (l + (⌊(x - l) / p⌋₊ + 1 : ℕ) * p) := by
  have h1 := Nat.floor_le (div_nonneg (sub_nonneg.2 hx) hp.le)
  have h2 := Nat.lt_floor_add_one ((x - l) / p)
  rw [le_div_iff₀ hp] at h1
  rw [div_lt_iff₀ hp] at h2
  constructor
  · linarith
  · push_cast; linarith

theorem floor_lt {l p x : ℝ} (hp : 0 < p) (hx : l ≤ x) {u : ℕ} (hu : x < l + u * p) :
    ⌊(x - l) / p⌋₊ < u := by
  rw [Nat.floor_lt (div_nonneg (sub_nonneg.2 hx) hp.le), div_lt_iff₀ hp]
  linarith

theorem step_integral1 (g : ℕ → ℝ) (l : ℝ) {p : ℝ} (hp : 0 < p) (u : ℕ) :
    IntegrableOn (fun x => g ⌊(x - l) / p⌋₊) (Ico l (l + u * p)) ∧
      ∫ x in Ico l (l + u * p), g ⌊(x - l) / p⌋₊ = p * ∑ b ∈ Finset.range u, g b := by
  induction u with
  | zero => simp
  | succ u ih =>
    have hcell : ∀ x ∈ Ico (l + u * p) (l + (u + 1 : ℕ) * p), g ⌊(x - l) / p⌋₊ = g u := by
      intro x hx
      rw [floor_cell hp hx]
    have hle : l + u * p ≤ l + (u + 1 : ℕ) * p := by push_cast; linarith
    have hl : l ≤ l + u * p := by have : 0 ≤ (u : ℝ) * p := by positivity
                                  linarith
    have hint : IntegrableOn (fun x => g ⌊(x - l) / p⌋₊) (Ico (l + u * p) (l + (u + 1 : ℕ) * p)) := by
      refine IntegrableOn.congr_fun (f := fun _ => g u) ?_ (fun x hx => (hcell x hx).symm) measurableSet_Ico
      exact integrableOn_const (by simp)
    have hval : ∫ x in Ico (l + u * p) (l + (u + 1 : ℕ) * p), g ⌊(x - l) / p⌋₊ = p * g u := by
      rw [setIntegral_congr_fun measurableSet_Ico hcell, setIntegral_const]
      simp only [measureReal_def, Real.volume_Ico, smul_eq_mul]
      rw [ENNReal.toReal_ofReal (by linarith)]
      push_cast
      ring
    rw [← Ico_union_Ico_eq_Ico hl hle]
    refine ⟨ih.1.union hint, ?_⟩
    rw [setIntegral_union (Ico_disjoint_Ico_same) measurableSet_Ico ih.1 hint, ih.2, hval,
      Finset.sum_range_succ]
    ring

theorem step_measurable (v : ℕ → ℕ → ℝ) (l m p : ℝ) :
    Measurable fun q : ℝ × ℝ => v ⌊(q.2 - m) / p⌋₊ ⌊(q.1 - l) / p⌋₊ := by
  have h : Measurable fun q : ℝ × ℝ => (⌊(q.2 - m) / p⌋₊, ⌊(q.1 - l) / p⌋₊) := by
    refine Measurable.prodMk (Nat.measurable_floor.comp ?_) (Nat.measurable_floor.comp ?_) <;> fun_prop
  exact (measurable_of_countable fun k : ℕ × ℕ => v k.1 k.2).comp h

theorem step_integrable2 (v : ℕ → ℕ → ℝ) (l m : ℝ) {p : ℝ} (hp : 0 < p) (u : ℕ) :
    IntegrableOn (fun q : ℝ × ℝ => v ⌊(q.2 - m) / p⌋₊ ⌊(q.1 - l) / p⌋₊)
      (Ico l (l + u * p) ×ˢ Ico m (m + u * p)) (volume.prod volume) := by
  refine Measure.integrableOn_of_bounded
    (M := ∑ a ∈ Finset.range u, ∑ b ∈ Finset.range u, |v a b|) ?_ (step_measurable v l m p).aestronglyMeasurable ?_
  · rw [Measure.prod_prod]
    simp [ENNReal.mul_eq_top]
  · refine (ae_restrict_mem (measurableSet_Ico.prod measurableSet_Ico)).mono fun q hq => ?_
    have h1 := floor_lt hp hq.1.1 hq.1.2
    have h2 := floor_lt hp hq.2.1 hq.2.2
    rw [Real.norm_eq_abs]
    refine le_trans ?_ (Finset.single_le_sum (f := fun a => ∑ b ∈ Finset.range u, |v a b|)
      (fun a _ => Finset.sum_nonneg fun b _ => abs_nonneg _) (Finset.mem_range.2 h2))
    exact Finset.single_le_sum (f := fun b => |v ⌊(q.2 - m) / p⌋₊ b|)
      (fun b _ => abs_nonneg _) (Finset.mem_range.2 h1)

theorem step_integral2 (v : ℕ → ℕ → ℝ) (l m : ℝ) {p : ℝ} (hp : 0 < p) (u : ℕ) :
    ∫ q in Ico l (l + u * p) ×ˢ Ico m (m + u * p), v ⌊(q.2 - m) / p⌋₊ ⌊(q.1 - l) / p⌋₊
      = p ^ 2 * ∑ a ∈ Finset.range u, ∑ b ∈ Finset.range u, v a b := by
  rw [Measure.volume_eq_prod, ← setIntegral_prod_swap]
  refine (setIntegral_prod _ (step_integrable2 v l m hp u).swap).trans ?_
  simp only [Function.comp, Prod.swap_prod_mk]
  have h1 : ∀ y, ∫ x in Ico l (l + u * p), v ⌊(y - m) / p⌋₊ ⌊(x - l) / p⌋₊
      = p * ∑ b ∈ Finset.range u, v ⌊(y - m) / p⌋₊ b := fun y => (step_integral1 _ l hp u).2
  simp only [h1]
  rw [(step_integral1 (fun a => p * ∑ b ∈ Finset.range u, v a b) m hp u).2, ← Finset.mul_sum]
  ring

/-! ### One pixel -/

/-- The quadrature over one sub-pixel of side `p` centred on `(X, Y)`. -/
noncomputable def cellQuad (rule : List (ℝ × ℝ)) (F : ℝ × ℝ → ℝ) (p X Y : ℝ) : ℝ :=
  (rule.map fun r => (rule.map fun s => F (X + p * s.1 / 2, Y + p * r.1 / 2) * (r.2 * s.2 / 4)).sum).sum

theorem rule_near (rule : List (ℝ × ℝ)) (F : ℝ × ℝ → ℝ) (c ω : ℝ) (hw : ∀ r ∈ rule, 0 ≤ r.2)
    (hF : ∀ r ∈ rule, |F r - c| ≤ ω) :
    |(rule.map fun r => F r * (r.2 / 2)).sum - c * ((rule.map Prod.snd).sum / 2)|
      ≤ ω * ((rule.map Prod.snd).sum / 2) := by
  induction rule with
  | nil => simp
  | cons a t ih =>
    have h1 := ih (fun r hr => hw r (by simp [hr])) (fun r hr => hF r (by simp [hr]))
    have h2 := hF a (by simp)
    have h3 := hw a (by simp)
    simp only [List.map_cons, List.sum_cons]
    have h4 : |F a * (a.2 / 2) - c * (a.2 / 2)| ≤ ω * (a.2 / 2) := by
      rw [← sub_mul, abs_mul, abs_of_nonneg (by linarith : 0 ≤ a.2 / 2)]
      exact mul_le_mul_of_nonneg_right h2 (by linarith)
    have h5 := abs_add_le (F a * (a.2 / 2) - c * (a.2 / 2))
      ((t.map fun r => F r * (r.2 / 2)).sum - c * ((t.map Prod.snd).sum / 2))
    refine le_trans (le_of_eq ?_) (h5.trans ((add_le_add h4 h1).trans (le_of_eq ?_)))
    · congr 1; ring
    · ring

theorem cellQuad_near {rule : List (ℝ × ℝ)} (hr : GoodRule rule) (F : ℝ × ℝ → ℝ) (p X Y c ω : ℝ)
    (hF : ∀ r ∈ rule, ∀ s ∈ rule, |F (X + p * s.1 / 2, Y + p * r.1 / 2) - c| ≤ ω) :
    |cellQuad rule F p X Y - c| ≤ ω := by
  have hin : ∀ r ∈ rule,
      |(rule.map fun s => F (X + p * s.1 / 2, Y + p * r.1 / 2) * (s.2 / 2)).sum - c| ≤ ω := by
    intro r h
    have := rule_near rule (fun s => F (X + p * s.1 / 2, Y + p * r.1 / 2)) c ω hr.weight (hF r h)
    rw [hr.total] at this
    simpa using this
  have hout := rule_near rule
    (fun r => (rule.map fun s => F (X + p * s.1 / 2, Y + p * r.1 / 2) * (s.2 / 2)).sum) c ω hr.weight hin
  rw [hr.total] at hout
  have e : cellQuad rule F p X Y = (rule.map fun r =>
      (rule.map fun s => F (X + p * s.1 / 2, Y + p * r.1 / 2) * (s.2 / 2)).sum * (r.2 / 2)).sum := by
    simp only [cellQuad]
    congr 1
    refine List.map_congr_left fun r _ => ?_
    rw [← List.sum_map_mul_right]
    congr 1
    refine List.map_congr_left fun s _ => ?_
    ring
  rw [e]
  simpa using hout

/-- The step function of the sub-pixel quadratures. -/
noncomputable def stepFn (rule : List (ℝ × ℝ)) (F : ℝ × ℝ → ℝ) (l m p : ℝ) (q : ℝ × ℝ) : ℝ :=
  cellQuad rule F p (l + ((⌊(q.1 - l) / p⌋₊ : ℕ) + 1 / 2) * p) (m + ((⌊(q.2 - m) / p⌋₊ : ℕ) + 1 / 2) * p)

theorem node_near {l p x t : ℝ} (hp : 0 < p) (hx : l ≤ x) (ht : |t| ≤ 1) {u : ℕ} (hu : x < l + u * p) :
    |l + ((⌊(x - l) / p⌋₊ : ℕ) + 1 / 2) * p + p * t / 2 - x| ≤ p ∧
      l + ((⌊(x - l) / p⌋₊ : ℕ) + 1 / 2) * p + p * t / 2 ∈ Icc l (l + u * p) := by
  have h1 := cell_floor hp hx
  have h2 : ((⌊(x - l) / p⌋₊ : ℕ) : ℝ) + 1 ≤ u := by exact_mod_cast floor_lt hp hx hu
  have h0 : (0 : ℝ) ≤ (⌊(x - l) / p⌋₊ : ℕ) := Nat.cast_nonneg _
  generalize ((⌊(x - l) / p⌋₊ : ℕ)) = k at h1 h2 h0 ⊢
  obtain ⟨h3, h4⟩ := h1
  push_cast at h4
  obtain ⟨t1, t2⟩ := abs_le.1 ht
  have a1 : -p ≤ p * t := by nlinarith
  have a2 : p * t ≤ p := by nlinarith
  have a3 : ((k : ℝ) + 1) * p ≤ u * p := mul_le_mul_of_nonneg_right h2 hp.le
  have a4 : 0 ≤ (k : ℝ) * p := by positivity
  refine ⟨abs_le.2 ⟨by nlinarith, by nlinarith⟩, by nlinarith, by nlinarith⟩

theorem stepFn_near {rule : List (ℝ × ℝ)} (hr : GoodRule rule) (F : ℝ × ℝ → ℝ) {l m p : ℝ} (hp : 0 < p) {u : ℕ}
    {q : ℝ × ℝ} (hq : q ∈ Ico l (l + u * p) ×ˢ Ico m (m + u * p)) {c ω : ℝ}
    (hF : ∀ q' ∈ Icc l (l + u * p) ×ˢ Icc m (m + u * p), |q'.1 - q.1| ≤ p → |q'.2 - q.2| ≤ p → |F q' - c| ≤ ω) :
    |stepFn rule F l m p q - c| ≤ ω := by
  refine cellQuad_near hr _ _ _ _ _ _ fun r h s h' => ?_
  have n1 := node_near hp hq.1.1 (hr.node s h') hq.1.2
  have n2 := node_near hp hq.2.1 (hr.node r h) hq.2.2
  exact hF _ ⟨n1.2, n2.2⟩ n1.1 n2.1

theorem stepFn_measurable (rule : List (ℝ × ℝ)) (F : ℝ × ℝ → ℝ) (l m p : ℝ) : Measurable (stepFn rule F l m p) :=
  step_measurable (fun a b => cellQuad rule F p (l + ((b : ℝ) + 1 / 2) * p) (m + ((a : ℝ) + 1 / 2) * p)) l m p

theorem box_ae (l m L : ℝ) : (Ico l (l + L) ×ˢ Ico m (m + L) : Set (ℝ × ℝ)) =ᵐ[volume] Icc l (l + L) ×ˢ Icc m (m + L) := by
  rw [Measure.volume_eq_prod]
  exact Measure.set_prod_ae_eq Ico_ae_eq_Icc Ico_ae_eq_Icc

theorem box_volume (l m : ℝ) {L : ℝ} (hL : 0 ≤ L) :
    volume.real (Icc l (l + L) ×ˢ Icc m (m + L) : Set (ℝ × ℝ)) = L ^ 2 := by
  rw [measureReal_def, Measure.volume_eq_prod, Measure.prod_prod, ENNReal.toReal_mul]
  simp [hL, sq]

theorem box_finite (l m L : ℝ) : volume (Icc l (l + L) ×ˢ Icc m (m + L) : Set (ℝ × ℝ)) < ⊤ :=
  (isCompact_Icc.prod isCompact_Icc).measure_lt_top

/-- The sub-pixel sum of one pixel, as an integral. -/
theorem sum_eq_integral (rule : List (ℝ × ℝ)) (F : ℝ × ℝ → ℝ) (l m : ℝ) {L : ℝ} (hL : 0 < L) {u : ℕ} (hu : 0 < u) :
    (∑ a ∈ Finset.range u, ∑ b ∈ Finset.range u,
      cellQuad rule F (L / u) (l + ((b : ℝ) + 1 / 2) * (L / u)) (m + ((a : ℝ) + 1 / 2) * (L / u))) / (u * u : ℕ)
      = (∫ q in Icc l (l + L) ×ˢ Icc m (m + L), stepFn rule F l m (L / u) q) / L ^ 2 := by
  have hu' : (0 : ℝ) < u := Nat.cast_pos.2 hu
  have h := step_integral2
    (fun a b => cellQuad rule F (L / u) (l + ((b : ℝ) + 1 / 2) * (L / u)) (m + ((a : ℝ) + 1 / 2) * (L / u)))
    l m (div_pos hL hu') u
  have e : (u : ℝ) * (L / u) = L := by field_simp
  rw [e] at h
  rw [← setIntegral_congr_set (box_ae l m L)]
  simp only [stepFn]
  rw [h]
  generalize (∑ a ∈ Finset.range u, ∑ b ∈ Finset.range u,
      cellQuad rule F (L / u) (l + ((b : ℝ) + 1 / 2) * (L / u)) (m + ((a : ℝ) + 1 / 2) * (L / u))) = S
  push_cast
  field_simp

/-- The error of one pixel is at most the oscillation of the brightness at the scale of a sub-pixel. -/
theorem pixel_error {rule : List (ℝ × ℝ)} (hr : GoodRule rule) (F : ℝ × ℝ → ℝ) (l m : ℝ) {L : ℝ} (hL : 0 < L)
    {u : ℕ} (hu : 0 < u) (hint : IntegrableOn F (Icc l (l + L) ×ˢ Icc m (m + L))) {ω : ℝ}
    (hω : ∀ q ∈ Icc l (l + L) ×ˢ Icc m (m + L), ∀ q' ∈ Icc l (l + L) ×ˢ Icc m (m + L),
      |q'.1 - q.1| ≤ L / u → |q'.2 - q.2| ≤ L / u → |F q' - F q| ≤ ω) :
    |(∑ a ∈ Finset.range u, ∑ b ∈ Finset.range u,
      cellQuad rule F (L / u) (l + ((b : ℝ) + 1 / 2) * (L / u)) (m + ((a : ℝ) + 1 / 2) * (L / u))) / (u * u : ℕ)
      - (∫ q in Icc l (l + L) ×ˢ Icc m (m + L), F q) / L ^ 2| ≤ ω := by
  have hu' : (0 : ℝ) < u := Nat.cast_pos.2 hu
  have e : (u : ℝ) * (L / u) = L := by field_simp
  rw [sum_eq_integral rule F l m hL hu, ← sub_div, abs_div, abs_of_pos (by positivity : 0 < L ^ 2),
    div_le_iff₀ (by positivity)]
  have hnear : ∀ q ∈ Ico l (l + L) ×ˢ Ico m (m + L), |stepFn rule F l m (L / u) q - F q| ≤ ω := by
    intro q hq
    refine stepFn_near hr F (u := u) (div_pos hL hu') (by rw [e]; exact hq) ?_
    rw [e]
    exact hω q ⟨Ico_subset_Icc_self hq.1, Ico_subset_Icc_self hq.2⟩
  have hstep : IntegrableOn (stepFn rule F l m (L / u)) (Icc l (l + L) ×ˢ Icc m (m + L)) := by
    have h := step_integrable2
      (fun a b => cellQuad rule F (L / u) (l + ((b : ℝ) + 1 / 2) * (L / u)) (m + ((a : ℝ) + 1 / 2) * (L / u)))
      l m (div_pos hL hu') u
    rw [e] at h
    exact h.congr_set_ae (box_ae l m L).symm
  rw [← integral_sub hstep hint, ← box_volume l m hL.le, ← Real.norm_eq_abs,
    ← setIntegral_congr_set (box_ae l m L), ← measureReal_congr (box_ae l m L)]
  refine norm_setIntegral_le_of_norm_le_const ?_ hnear
  exact (measure_congr (box_ae l m L)).trans_lt (box_finite l m L)

/-- One pixel in the limit of many sub-pixels. -/
theorem pixel_converges {rule : List (ℝ × ℝ)} (hr : GoodRule rule) (F : ℝ × ℝ → ℝ) (l m : ℝ) {L : ℝ} (hL : 0 < L)
    {M : ℝ} (hM : ∀ q ∈ Icc l (l + L) ×ˢ Icc m (m + L), |F q| ≤ M)
    (hc : ∀ᵐ q ∂volume.restrict (Icc l (l + L) ×ˢ Icc m (m + L)),
      ContinuousWithinAt F (Icc l (l + L) ×ˢ Icc m (m + L)) q) :
    Tendsto (fun u : ℕ => (∑ a ∈ Finset.range u, ∑ b ∈ Finset.range u,
      cellQuad rule F (L / u) (l + ((b : ℝ) + 1 / 2) * (L / u)) (m + ((a : ℝ) + 1 / 2) * (L / u))) / (u * u : ℕ))
      atTop (𝓝 ((∫ q in Icc l (l + L) ×ˢ Icc m (m + L), F q) / L ^ 2)) := by
  have hev : ∀ᶠ u : ℕ in atTop, 0 < u := eventually_gt_atTop 0
  have hIco : ∀ᵐ q ∂volume.restrict (Icc l (l + L) ×ˢ Icc m (m + L) : Set (ℝ × ℝ)),
      q ∈ Ico l (l + L) ×ˢ Ico m (m + L) := by
    rw [← Measure.restrict_congr_set (box_ae l m L)]
    exact ae_restrict_mem (measurableSet_Ico.prod measurableSet_Ico)
  refine Tendsto.congr' (f₁ := fun u : ℕ =>
    (∫ q in Icc l (l + L) ×ˢ Icc m (m + L), stepFn rule F l m (L / u) q) / L ^ 2)
    (hev.mono fun u hu => (sum_eq_integral rule F l m hL hu).symm) ?_
  refine Tendsto.div_const ?_ _
  refine tendsto_integral_filter_of_dominated_convergence (fun _ => M)
    (Eventually.of_forall fun u => (stepFn_measurable rule F l m _).aestronglyMeasurable) ?_ ?_ ?_
  · refine hev.mono fun u hu => hIco.mono fun q hq => ?_
    have hu' : (0 : ℝ) < u := Nat.cast_pos.2 hu
    have e : (u : ℝ) * (L / u) = L := by field_simp
    have := stepFn_near hr F (u := u) (c := 0) (ω := M) (div_pos hL hu') (by rw [e]; exact hq)
      (by rw [e]; intro q' hq' _ _; simpa using hM q' hq')
    simpa using this
  · exact integrableOn_const (box_finite l m L).ne
  · filter_upwards [hc, hIco] with q hq hqI
    rw [Metric.tendsto_atTop]
    intro ε hε
    obtain ⟨δ, hδ, hF⟩ := Metric.continuousWithinAt_iff.1 hq (ε / 2) (by linarith)
    obtain ⟨N, hN⟩ := exists_nat_gt (L / δ)
    refine ⟨N + 1, fun u hu => ?_⟩
    have hu0 : (0 : ℝ) < u := Nat.cast_pos.2 (by omega)
    have hNu : (N : ℝ) + 1 ≤ u := by exact_mod_cast hu
    have e : (u : ℝ) * (L / u) = L := by field_simp
    have hlt : L / u < δ := by
      rw [div_lt_iff₀ hu0]
      rw [div_lt_iff₀ hδ] at hN
      nlinarith
    rw [Real.dist_eq]
    refine lt_of_le_of_lt (b := ε / 2) ?_ (by linarith)
    refine stepFn_near hr F (u := u) (div_pos hL hu0) (by rw [e]; exact hqI) ?_
    rw [e]
    intro q' hq' h1 h2
    have := hF hq' (by
      rw [Prod.dist_eq, Real.dist_eq, Real.dist_eq]
      exact max_lt (h1.trans_lt hlt) (h2.trans_lt hlt))
    rw [Real.dist_eq] at this
    exact this.le

/-! ### The simulator -/

variable {lib : SimLib}

/-- The quadrature rule a configuration uses on each sub-pixel. -/
noncomputable def SimCfg.rule (cfg : SimCfg) (lib : SimLib) : List (ℝ × ℝ) :=
  match cfg.quadLevel with
  | some q => if 1 < q then lib.legendre q else [(0, 2)]
  | none => [(0, 2)]

theorem rule_good (cfg : SimCfg) (hl : ∀ q, 1 < q → GoodRule (lib.legendre q)) : GoodRule (cfg.rule lib) := by
  have h0 : GoodRule [((0 : ℝ), (2 : ℝ))] := ⟨by simp, by simp, by simp⟩
  unfold SimCfg.rule
  split
  · split
    · exact hl _ ‹_›
    · exact h0
  · exact h0

theorem pixelSquare_eq (cfg : SimCfg) (c : SimScene) (i j : ℕ) :
    pixelSquare cfg c i j = Icc (c.x0 + ((j : ℝ) - (cfg.pixelsX : ℝ) / 2) * cfg.pixelscale)
      (c.x0 + ((j : ℝ) - (cfg.pixelsX : ℝ) / 2) * cfg.pixelscale + cfg.pixelscale) ×ˢ
    Icc (c.y0 + ((i : ℝ) - (cfg.pixelsY : ℝ) / 2) * cfg.pixelscale)
      (c.y0 + ((i : ℝ) - (cfg.pixelsY : ℝ) / 2) * cfg.pixelscale + cfg.pixelscale) := by
  unfold pixelSquare
  congr 2 <;> ring

theorem pixel_sum {cfg : SimCfg} {x : Sim} (h : Sim.new lib cfg = .ok x) (c : SimScene)
    (hc : c.psfConvolve = false ∨ (c.psf.h = 1 ∧ c.psf.w = 1)) {i j : ℕ} (hi : i < cfg.pixelsY)
    (hj : j < cfg.pixelsX) :
    (x.call c).at' i j = (∑ a ∈ Finset.range cfg.upsample, ∑ b ∈ Finset.range cfg.upsample,
      cellQuad (cfg.rule lib) c.sky (cfg.pixelscale / cfg.upsample)
        (c.x0 + ((j : ℝ) - (cfg.pixelsX : ℝ) / 2) * cfg.pixelscale
          + ((b : ℝ) + 1 / 2) * (cfg.pixelscale / cfg.upsample))
        (c.y0 + ((i : ℝ) - (cfg.pixelsY : ℝ) / 2) * cfg.pixelscale
          + ((a : ℝ) + 1 / 2) * (cfg.pixelscale / cfg.upsample))) / (cfg.upsample * cfg.upsample : ℕ) := by
  have h1 := C42_pixels h c hc hi hj
  obtain ⟨k0, k1, l, hsh, hcfg, hu, hpad, hn, -⟩ := new_ok h
  have hu' : (cfg.upsample : ℝ) ≠ 0 := Nat.cast_ne_zero.2 hu
  refine h1.trans ?_
  congr 1
  refine Finset.sum_congr rfl fun a _ => Finset.sum_congr rfl fun b _ => ?_
  simp only [cellQuad, SimCfg.rule, SimScene.sky]
  congr 1
  refine List.map_congr_left fun r _ => ?_
  congr 1
  refine List.map_congr_left fun s _ => ?_
  congr 1
  have eX : ((j : ℝ) - ((cfg.pixelsX : ℝ) - 1) / 2) * cfg.pixelscale
      + ((b : ℝ) - ((cfg.upsample : ℝ) - 1) / 2) * (cfg.pixelscale / cfg.upsample)
      + cfg.pixelscale / cfg.upsample * s.1 / 2 + c.x0
      = c.x0 + ((j : ℝ) - (cfg.pixelsX : ℝ) / 2) * cfg.pixelscale
          + ((b : ℝ) + 1 / 2) * (cfg.pixelscale / cfg.upsample) + cfg.pixelscale / cfg.upsample * s.1 / 2 := by
    field_simp; ring
  have eY : ((i : ℝ) - ((cfg.pixelsY : ℝ) - 1) / 2) * cfg.pixelscale
      + ((a : ℝ) - ((cfg.upsample : ℝ) - 1) / 2) * (cfg.pixelscale / cfg.upsample)
      + cfg.pixelscale / cfg.upsample * r.1 / 2 + c.y0
      = c.y0 + ((i : ℝ) - (cfg.pixelsY : ℝ) / 2) * cfg.pixelscale
          + ((a : ℝ) + 1 / 2) * (cfg.pixelscale / cfg.upsample) + cfg.pixelscale / cfg.upsample * r.1 / 2 := by
    field_simp; ring
  rw [eX, eY]
  cases c.source <;> cases c.lensLight <;> rfl

/-- A pixel of the image differs from the brightness averaged over the pixel by at most the change of the
brightness over distances of one sub-pixel, whatever the quadrature level. -/
theorem C101_error {cfg : SimCfg} {x : Sim} (h : Sim.new lib cfg = .ok x)
    (hl : ∀ q, 1 < q → GoodRule (lib.legendre q)) (hps : 0 < cfg.pixelscale) (c : SimScene)
    (hc : c.psfConvolve = false ∨ (c.psf.h = 1 ∧ c.psf.w = 1)) {i j : ℕ} (hi : i < cfg.pixelsY)
    (hj : j < cfg.pixelsX) (hint : IntegrableOn c.sky (pixelSquare cfg c i j)) {ω : ℝ}
    (hω : ∀ q ∈ pixelSquare cfg c i j, ∀ q' ∈ pixelSquare cfg c i j,
      |q'.1 - q.1| ≤ cfg.pixelscale / cfg.upsample → |q'.2 - q.2| ≤ cfg.pixelscale / cfg.upsample →
        |c.sky q' - c.sky q| ≤ ω) :
    |(x.call c).at' i j - (∫ q in pixelSquare cfg c i j, c.sky q) / cfg.pixelscale ^ 2| ≤ ω := by
  have hu : 0 < cfg.upsample := by
    obtain ⟨k0, k1, l, hsh, hcfg, hu, -⟩ := new_ok h
    omega
  rw [pixel_sum h c hc hi hj]
  rw [pixelSquare_eq] at hint hω ⊢
  exact pixel_error (rule_good cfg hl) c.sky _ _ hps hu hint hω

/-- For a Lipschitz brightness the error falls at least like one over the upsampling factor. -/
theorem C101_rate {cfg : SimCfg} {x : Sim} (h : Sim.new lib cfg = .ok x)
    (hl : ∀ q, 1 < q → GoodRule (lib.legendre q)) (hps : 0 < cfg.pixelscale) (c : SimScene)
    (hc : c.psfConvolve = false ∨ (c.psf.h = 1 ∧ c.psf.w = 1)) {i j : ℕ} (hi : i < cfg.pixelsY)
    (hj : j < cfg.pixelsX) {C : NNReal} (hC : LipschitzOnWith C c.sky (pixelSquare cfg c i j)) :
    |(x.call c).at' i j - (∫ q in pixelSquare cfg c i j, c.sky q) / cfg.pixelscale ^ 2|
      ≤ C * cfg.pixelscale / cfg.upsample := by
  refine C101_error h hl hps c hc hi hj ?_ ?_
  · exact hC.continuousOn.integrableOn_compact (isCompact_Icc.prod isCompact_Icc)
  · intro q hq q' hq' h1 h2
    have := hC.dist_le_mul q' hq' q hq
    rw [Real.dist_eq] at this
    refine this.trans ?_
    rw [mul_div_assoc]
    refine mul_le_mul_of_nonneg_left ?_ C.2
    rw [Prod.dist_eq, Real.dist_eq, Real.dist_eq]
    exact max_le h1 h2

/-- As the upsampling factor grows every pixel tends to the brightness averaged over it, if the brightness is
bounded on the pixel and continuous at almost every point of it: jumps along caustics, edges of stars and the
centres of lenses do not matter. -/
theorem C101_converges (cfg : SimCfg) (x : ℕ → Sim)
    (h : ∀ u, 0 < u → Sim.new lib { cfg with upsample := u } = .ok (x u))
    (hl : ∀ q, 1 < q → GoodRule (lib.legendre q)) (hps : 0 < cfg.pixelscale) (c : SimScene)
    (hc : c.psfConvolve = false ∨ (c.psf.h = 1 ∧ c.psf.w = 1)) {i j : ℕ} (hi : i < cfg.pixelsY)
    (hj : j < cfg.pixelsX) {M : ℝ} (hM : ∀ q ∈ pixelSquare cfg c i j, |c.sky q| ≤ M)
    (hcont : ∀ᵐ q ∂volume.restrict (pixelSquare cfg c i j), ContinuousWithinAt c.sky (pixelSquare cfg c i j) q) :
    Tendsto (fun u => ((x u).call c).at' i j) atTop
      (𝓝 ((∫ q in pixelSquare cfg c i j, c.sky q) / cfg.pixelscale ^ 2)) := by
  rw [pixelSquare_eq] at hM hcont ⊢
  refine Tendsto.congr' ?_ (pixel_converges (rule_good cfg hl) c.sky _ _ hps hM hcont)
  filter_upwards [eventually_gt_atTop 0] with u hu
  exact (pixel_sum (h u hu) c hc hi hj).symm

/-! ### The whole image -/

/-- The field of view. -/
def fieldRect (cfg : SimCfg) (c : SimScene) : Set (ℝ × ℝ) :=
  Icc (c.x0 - (cfg.pixelsX : ℝ) / 2 * cfg.pixelscale) (c.x0 + (cfg.pixelsX : ℝ) / 2 * cfg.pixelscale) ×ˢ
    Icc (c.y0 - (cfg.pixelsY : ℝ) / 2 * cfg.pixelscale) (c.y0 + (cfg.pixelsY : ℝ) / 2 * cfg.pixelscale)

theorem tiles_integral (F : ℝ × ℝ → ℝ) (l m : ℝ) {p : ℝ} (hp : 0 < p) (nx ny : ℕ)
    (hF : IntegrableOn F (Ico l (l + nx * p) ×ˢ Ico m (m + ny * p))) :
    ∫ q in Ico l (l + nx * p) ×ˢ Ico m (m + ny * p), F q
      = ∑ i ∈ Finset.range ny, ∑ j ∈ Finset.range nx,
        ∫ q in Ico (l + j * p) (l + (j + 1 : ℕ) * p) ×ˢ Ico (m + i * p) (m + (i + 1 : ℕ) * p), F q := by
  have hU : (Ico l (l + nx * p) ×ˢ Ico m (m + ny * p) : Set (ℝ × ℝ)) =
      ⋃ k ∈ Finset.range ny ×ˢ Finset.range nx,
        Ico (l + (k.2 : ℕ) * p) (l + (k.2 + 1 : ℕ) * p) ×ˢ Ico (m + (k.1 : ℕ) * p) (m + (k.1 + 1 : ℕ) * p) := by
    ext q
    simp only [mem_iUnion, exists_prop, Finset.mem_product, Finset.mem_range]
    constructor
    · intro hq
      exact ⟨(⌊(q.2 - m) / p⌋₊, ⌊(q.1 - l) / p⌋₊), ⟨floor_lt hp hq.2.1 hq.2.2, floor_lt hp hq.1.1 hq.1.2⟩,
        cell_floor hp hq.1.1, cell_floor hp hq.2.1⟩
    · rintro ⟨k, ⟨h1, h2⟩, hx, hy⟩
      have a1 : ((k.1 + 1 : ℕ) : ℝ) * p ≤ ny * p := mul_le_mul_of_nonneg_right (Nat.cast_le.2 h1) hp.le
      have a2 : ((k.2 + 1 : ℕ) : ℝ) * p ≤ nx * p := mul_le_mul_of_nonneg_right (Nat.cast_le.2 h2) hp.le
      have a3 : 0 ≤ (k.1 : ℝ) * p := by positivity
      have a4 : 0 ≤ (k.2 : ℝ) * p := by positivity
      exact ⟨⟨by linarith [hx.1], by linarith [hx.2]⟩, ⟨by linarith [hy.1], by linarith [hy.2]⟩⟩
  rw [← Finset.sum_product', hU]
  rw [hU] at hF
  refine integral_biUnion_finset _ (fun _ _ => measurableSet_Ico.prod measurableSet_Ico) ?_ ?_
  · intro a _ b _ hab
    refine Set.disjoint_left.2 fun q ha hb => hab ?_
    exact Prod.ext ((floor_cell hp ha.2).symm.trans (floor_cell hp hb.2))
      ((floor_cell hp ha.1).symm.trans (floor_cell hp hb.1))
  · intro k hk
    exact hF.mono_set (subset_biUnion_of_mem (u := fun k : ℕ × ℕ =>
      Ico (l + (k.2 : ℕ) * p) (l + (k.2 + 1 : ℕ) * p) ×ˢ Ico (m + (k.1 : ℕ) * p) (m + (k.1 + 1 : ℕ) * p)) hk)

theorem rect_ae (a b c d : ℝ) : (Ico a b ×ˢ Ico c d : Set (ℝ × ℝ)) =ᵐ[volume] Icc a b ×ˢ Icc c d := by
  rw [Measure.volume_eq_prod]
  exact Measure.set_prod_ae_eq Ico_ae_eq_Icc Ico_ae_eq_Icc

theorem field_integral (cfg : SimCfg) (hps : 0 < cfg.pixelscale) (c : SimScene)
    (hF : IntegrableOn c.sky (fieldRect cfg c)) :
    ∫ q in fieldRect cfg c, c.sky q
      = ∑ i ∈ Finset.range cfg.pixelsY, ∑ j ∈ Finset.range cfg.pixelsX, ∫ q in pixelSquare cfg c i j, c.sky q := by
  have e : fieldRect cfg c = Icc (c.x0 - (cfg.pixelsX : ℝ) / 2 * cfg.pixelscale)
      (c.x0 - (cfg.pixelsX : ℝ) / 2 * cfg.pixelscale + cfg.pixelsX * cfg.pixelscale) ×ˢ
    Icc (c.y0 - (cfg.pixelsY : ℝ) / 2 * cfg.pixelscale)
      (c.y0 - (cfg.pixelsY : ℝ) / 2 * cfg.pixelscale + cfg.pixelsY * cfg.pixelscale) := by
    unfold fieldRect
    congr 2 <;> ring
  rw [e] at hF ⊢
  rw [← setIntegral_congr_set (rect_ae _ _ _ _), tiles_integral _ _ _ hps _ _ (hF.congr_set_ae (rect_ae _ _ _ _))]
  refine Finset.sum_congr rfl fun i _ => Finset.sum_congr rfl fun j _ => ?_
  rw [setIntegral_congr_set (rect_ae _ _ _ _)]
  congr 2
  unfold pixelSquare
  push_cast
  congr 2 <;> ring

/-- The pixel values times the area of a pixel add up to the light in the field of view, in the same limit. -/
theorem C101_flux (cfg : SimCfg) (x : ℕ → Sim)
    (h : ∀ u, 0 < u → Sim.new lib { cfg with upsample := u } = .ok (x u))
    (hl : ∀ q, 1 < q → GoodRule (lib.legendre q)) (hps : 0 < cfg.pixelscale) (c : SimScene)
    (hc : c.psfConvolve = false ∨ (c.psf.h = 1 ∧ c.psf.w = 1))
    {M : ℝ} (hM : ∀ q ∈ fieldRect cfg c, |c.sky q| ≤ M) (hcont : ∀ᵐ q ∂volume.restrict (fieldRect cfg c), ContinuousAt c.sky q) :
    Tendsto (fun u => ∑ i ∈ Finset.range cfg.pixelsY, ∑ j ∈ Finset.range cfg.pixelsX,
        ((x u).call c).at' i j * cfg.pixelscale ^ 2) atTop (𝓝 (∫ q in fieldRect cfg c, c.sky q)) := by
  have hsub : ∀ i j, i < cfg.pixelsY → j < cfg.pixelsX → pixelSquare cfg c i j ⊆ fieldRect cfg c := by
    intro i j hi hj q hq
    have h1 : ((i : ℝ) + 1) * cfg.pixelscale ≤ cfg.pixelsY * cfg.pixelscale :=
      mul_le_mul_of_nonneg_right (by exact_mod_cast hi) hps.le
    have h2 : ((j : ℝ) + 1) * cfg.pixelscale ≤ cfg.pixelsX * cfg.pixelscale :=
      mul_le_mul_of_nonneg_right (by exact_mod_cast hj) hps.le
    have h3 : 0 ≤ (i : ℝ) * cfg.pixelscale := by positivity
    have h4 : 0 ≤ (j : ℝ) * cfg.pixelscale := by positivity
    obtain ⟨⟨a1, a2⟩, a3, a4⟩ := hq
    exact ⟨⟨by nlinarith, by nlinarith⟩, by nlinarith, by nlinarith⟩
  have hmeas : AEStronglyMeasurable c.sky (volume.restrict (fieldRect cfg c)) := by
    have hS : MeasurableSet {q | ContinuousAt c.sky q} := measurableSet_of_continuousAt c.sky
    have hon : ContinuousOn c.sky {q | ContinuousAt c.sky q} := fun q hq => ContinuousAt.continuousWithinAt hq
    have := hon.aestronglyMeasurable (μ := volume.restrict (fieldRect cfg c)) hS
    rwa [Measure.restrict_eq_self_of_ae_mem (s := {q | ContinuousAt c.sky q}) hcont] at this
  have hint : IntegrableOn c.sky (fieldRect cfg c) := by
    refine ⟨hmeas, .restrict_of_bounded (C := M) (isCompact_Icc.prod isCompact_Icc).measure_lt_top ?_⟩
    exact (ae_restrict_mem (measurableSet_Icc.prod measurableSet_Icc)).mono fun q hq => by
      simpa using hM q hq
  rw [field_integral cfg hps c hint]
  refine tendsto_finsetSum _ fun i hi => tendsto_finsetSum _ fun j hj => ?_
  have hi := Finset.mem_range.1 hi
  have hj := Finset.mem_range.1 hj
  have := (C101_converges cfg x h hl hps c hc hi hj (fun q hq => hM q (hsub i j hi hj hq))
    (ae_restrict_of_ae_restrict_of_subset (hsub i j hi hj) (hcont.mono fun q hq => hq.continuousWithinAt))).mul_const (cfg.pixelscale ^ 2)
  rwa [div_mul_cancel₀ _ (by positivity)] at this

/-- One pixel covering [0, 1] x [0, 1], whose sky is bright where x < 1/3. -/
noncomputable def edgeScene : SimScene :=
  ⟨fun a b => (a, b), some (fun a _ => if a < 1 / 3 then 1 else 0), none, ⟨1, 1, fun _ _ => 1⟩, 1 / 2, 1 / 2,
    true, true, true, true⟩

noncomputable def edgeCfg : SimCfg := ⟨"conv2d", [1, 1], 1, 1, 1, 1, some 3⟩

theorem edge_sky (q : ℝ × ℝ) : edgeScene.sky q = (Iio (1 / 3) ×ˢ univ : Set (ℝ × ℝ)).indicator (fun _ => 1) q := by
  simp [SimScene.sky, edgeScene, Set.indicator]

theorem edge_new (u : ℕ) (hu : 0 < u) : ∃ x, Sim.new lib14 { edgeCfg with upsample := u } = .ok x := by
  obtain ⟨n, rfl⟩ : ∃ n, u = n + 1 := ⟨u - 1, by omega⟩
  exact ⟨_, rfl⟩

theorem edge_bound (q : ℝ × ℝ) : |edgeScene.sky q| ≤ 1 := by
  rw [edge_sky]
  unfold Set.indicator
  split <;> norm_num

theorem edge_cont : ∀ᵐ q : ℝ × ℝ, ContinuousAt edgeScene.sky q := by
  have hnull : volume ({1 / 3} ×ˢ univ : Set (ℝ × ℝ)) = 0 := by
    rw [Measure.volume_eq_prod, Measure.prod_prod]; simp
  filter_upwards [compl_mem_ae_iff.2 hnull] with q hq
  have hne : q.1 ≠ 1 / 3 := by simpa using hq
  have e : edgeScene.sky = fun q => if q.1 < 1 / 3 then 1 else 0 := by
    funext q; simp [SimScene.sky, edgeScene]
  rw [e]
  rcases lt_or_gt_of_ne hne with h | h
  · refine ContinuousAt.congr (f := fun _ => (1 : ℝ)) continuousAt_const ?_
    filter_upwards [continuous_fst.continuousAt.eventually (eventually_lt_nhds h)] with q' hq'
    exact (if_pos hq').symm
  · refine ContinuousAt.congr (f := fun _ => (0 : ℝ)) continuousAt_const ?_
    filter_upwards [continuous_fst.continuousAt.eventually (eventually_gt_nhds h)] with q' hq'
    exact (if_neg (not_lt.2 (le_of_lt hq'))).symm
theorem edge_integral : ∫ q in pixelSquare edgeCfg edgeScene 0 0, edgeScene.sky q = 1 / 3 := by
  have e : pixelSquare edgeCfg edgeScene 0 0 = Icc 0 1 ×ˢ Icc 0 1 := by
    simp [pixelSquare, edgeCfg, edgeScene]
  simp only [e, edge_sky]
  rw [setIntegral_indicator (measurableSet_Iio.prod MeasurableSet.univ), Set.prod_inter_prod]
  have e2 : (Icc 0 1 ∩ Iio (1 / 3) : Set ℝ) = Ico 0 (1 / 3) := by
    ext t
    simp only [mem_inter_iff, mem_Icc, mem_Iio, mem_Ico]
    constructor
    · exact fun h => ⟨h.1.1, h.2⟩
    · exact fun h => ⟨⟨h.1, by linarith [h.2]⟩, h.2⟩
  rw [e2, setIntegral_const]
  simp [measureReal_def, Measure.volume_eq_prod]

theorem edge_rule : ∀ q, 1 < q → GoodRule (lib14.legendre q) :=
  fun q _ => ⟨by simp [lib14], by simp [lib14], by simp [lib14]⟩

/-- The sharp edge: without supersampling the pixel is dark, in the limit it holds a third of the light. -/
example : ∃ x : ℕ → Sim, (∀ u, 0 < u → Sim.new lib14 { edgeCfg with upsample := u } = .ok (x u)) ∧
    ((x 1).call edgeScene).at' 0 0 = 0 ∧
    Tendsto (fun u => ((x u).call edgeScene).at' 0 0) atTop (𝓝 (1 / 3)) := by
  choose x hx using edge_new
  let y : ℕ → Sim := fun u => if h : 0 < u then x u h else x 1 one_pos
  have hy : ∀ u, 0 < u → Sim.new lib14 { edgeCfg with upsample := u } = .ok (y u) := by
    intro u hu
    simp only [y, hu, dif_pos]
    exact hx u hu
  refine ⟨y, hy, ?_, ?_⟩
  · have h := C42_pixels (hy 1 one_pos) edgeScene (.inr ⟨rfl, rfl⟩) (i := 0) (j := 0) (by norm_num [edgeCfg])
      (by norm_num [edgeCfg])
    refine h.trans ?_
    simp [edgeCfg, edgeScene, lib14]
    norm_num
  · have := C101_converges edgeCfg y hy edge_rule (by norm_num [edgeCfg]) edgeScene (.inr ⟨rfl, rfl⟩) (i := 0) (j := 0)
      (by norm_num [edgeCfg]) (by norm_num [edgeCfg]) (M := 1) (fun q _ => edge_bound q)
      (ae_restrict_of_ae (edge_cont.mono fun q hq => hq.continuousWithinAt))
    convert this using 2
    rw [edge_integral]
    norm_num [edgeCfg]

/-- The light of the one-pixel field tends to a third too. -/
example (x : ℕ → Sim) (hx : ∀ u, 0 < u → Sim.new lib14 { edgeCfg with upsample := u } = .ok (x u)) :
    Tendsto (fun u => ∑ i ∈ Finset.range 1, ∑ j ∈ Finset.range 1, ((x u).call edgeScene).at' i j * 1 ^ 2)
      atTop (𝓝 (1 / 3)) := by
  have h := C101_flux edgeCfg x hx edge_rule (by norm_num [edgeCfg]) edgeScene (.inr ⟨rfl, rfl⟩) (M := 1)
    (fun q _ => edge_bound q) (ae_restrict_of_ae edge_cont)
  have e : fieldRect edgeCfg edgeScene = pixelSquare edgeCfg edgeScene 0 0 := by
    simp [fieldRect, pixelSquare, edgeCfg, edgeScene]; norm_num
  rw [e, edge_integral] at h
  exact h

/-- A brightness that rises with slope 5 along x: the pixel is within 5/u of the average. -/
example {u : ℕ} {x : Sim} (hx : Sim.new lib14 { edgeCfg with upsample := u } = .ok x) :
    let c := { edgeScene with source := some fun a _ => 5 * a }
    |(x.call c).at' 0 0 - (∫ q in pixelSquare edgeCfg c 0 0, c.sky q) / 1 ^ 2| ≤ 5 * 1 / (u : ℝ) := by
  intro c
  have hl : LipschitzOnWith 5 c.sky (pixelSquare edgeCfg c 0 0) := by
    refine LipschitzOnWith.of_dist_le_mul fun q _ q' _ => ?_
    have e : ∀ q, c.sky q = 5 * q.1 := fun q => by simp [c, SimScene.sky, edgeScene]
    rw [e, e, Real.dist_eq, ← mul_sub, abs_mul, Prod.dist_eq, Real.dist_eq, Real.dist_eq]
    norm_num
  exact C101_rate hx edge_rule (by norm_num [edgeCfg]) c (.inr ⟨rfl, rfl⟩) (i := 0) (j := 0)
    (by norm_num [edgeCfg]) (by norm_num [edgeCfg]) hl

end Caustics

import Verif.Lemmas.FirstImage
import Verif.Props.Planes
import Verif.Props.Jacobian
import Verif.Props.LensSimple
import Verif.Props.SIE

/-!
The first image of a source: it exists, and it is at least as bright as the source.

Any superposition (`SinglePlane`) of lenses whose mass is not negative and whose potential grows
slower than the geometric term of the arrival time.
-/

namespace Caustics

open Filter Topology

/-- At `(x, y)` the potential of the lens generates its deflection, nearby as well, and the
convergence it reports is half the divergence and not negative. -/
def LensFn.RegularAt (m : LensFn ℝ) (p : ℝ × ℝ) : Prop :=
  (∀ᶠ q : ℝ × ℝ in 𝓝 p, HasGrad m.potential (m.deflection q.1 q.2).1 (m.deflection q.1 q.2).2 q.1 q.2) ∧
    HasKappa m.deflection (m.convergence p.1 p.2) p.1 p.2 ∧ 0 ≤ m.convergence p.1 p.2

/-- A cusp of the potential (isothermal centre). -/
def LensFn.CuspAt (m : LensFn ℝ) (p : ℝ × ℝ) : Prop :=
  ContinuousAt (fun q : ℝ × ℝ => m.potential q.1 q.2) p ∧ HasCusp m.potential p.1 p.2

/-- The potential falls to `-∞` (point mass). -/
def LensFn.PoleAt (m : LensFn ℝ) (p : ℝ × ℝ) : Prop :=
  Tendsto (fun q : ℝ × ℝ => m.potential q.1 q.2) (𝓝[≠] p) atBot

/-- A lens of non-negative mass: regular except for cusps and finitely many poles; the potential grows
no faster than `a r²` plus something linear. -/
structure LensFn.Massive (m : LensFn ℝ) (a : ℝ) where
  poles : Set (ℝ × ℝ)
  finite : poles.Finite
  pole : ∀ p ∈ poles, m.PoleAt p
  off : ∀ p ∉ poles, m.RegularAt p ∨ m.CuspAt p
  growth : ∃ b d : ℝ, 0 ≤ b ∧ 0 ≤ d ∧ ∀ x y, m.potential x y ≤ a * (x ^ 2 + y ^ 2) + b * √(x ^ 2 + y ^ 2) + d

/-- Superposition of two lenses. -/
def addLens (m n : LensFn ℝ) : LensFn ℝ where
  deflection x y := ((m.deflection x y).1 + (n.deflection x y).1, (m.deflection x y).2 + (n.deflection x y).2)
  convergence x y := m.convergence x y + n.convergence x y
  potential x y := m.potential x y + n.potential x y

theorem LensFn.RegularAt.continuousAt {m : LensFn ℝ} {p : ℝ × ℝ} (h : m.RegularAt p) :
    ContinuousAt (fun q : ℝ × ℝ => m.potential q.1 q.2) p :=
  HasFDerivAt.continuousAt h.1.self_of_nhds

theorem HasKappa.add {v w : ℝ → ℝ → ℝ × ℝ} {k l x y : ℝ} (hv : HasKappa v k x y) (hw : HasKappa w l x y) :
    HasKappa (fun x y => ((v x y).1 + (w x y).1, (v x y).2 + (w x y).2)) (k + l) x y := by
  obtain ⟨a, b, c, h, rfl⟩ := hv
  obtain ⟨a', b', c', h', rfl⟩ := hw
  exact ⟨a + a', b + b', c + c', ⟨h.1.add h'.1, h.2.add h'.2⟩, by ring⟩

theorem LensFn.RegularAt.add {m n : LensFn ℝ} {p : ℝ × ℝ} (hm : m.RegularAt p) (hn : n.RegularAt p) :
    (addLens m n).RegularAt p := by
  refine ⟨?_, hm.2.1.add hn.2.1, add_nonneg hm.2.2 hn.2.2⟩
  filter_upwards [hm.1, hn.1] with q h1 h2 using h1.add h2

theorem off_continuousAt {m : LensFn ℝ} {p : ℝ × ℝ} (h : m.RegularAt p ∨ m.CuspAt p) :
    ContinuousAt (fun q : ℝ × ℝ => m.potential q.1 q.2) p :=
  h.elim (fun h => h.continuousAt) (fun h => h.1)

/-- Superpositions of lenses of non-negative mass are of that kind. -/
def LensFn.Massive.add {m n : LensFn ℝ} {a b : ℝ} (hm : m.Massive a) (hn : n.Massive b) :
    (addLens m n).Massive (a + b) where
  poles := hm.poles ∪ hn.poles
  finite := hm.finite.union hn.finite
  pole := by
    intro p hp
    have key : ∀ {m n : LensFn ℝ} {a b : ℝ} (hm : m.Massive a) (hn : n.Massive b), p ∈ hm.poles →
        Tendsto (fun q : ℝ × ℝ => m.potential q.1 q.2 + n.potential q.1 q.2) (𝓝[≠] p) atBot := by
      intro m n a b hm hn h
      by_cases h' : p ∈ hn.poles
      · exact (hm.pole p h).atBot_add_atBot (hn.pole p h')
      · exact (hm.pole p h).atBot_add ((off_continuousAt (hn.off p h')).tendsto.mono_left
          nhdsWithin_le_nhds)
    rcases hp with hp | hp
    · exact key hm hn hp
    · have := key hn hm hp
      exact this.congr fun q => add_comm _ _
  off := by
    intro p hp
    have h1 := hm.off p fun h => hp (Or.inl h)
    have h2 := hn.off p fun h => hp (Or.inr h)
    have hc := (off_continuousAt h1).add (off_continuousAt h2)
    rcases h1 with h1 | h1
    · rcases h2 with h2 | h2
      · exact Or.inl (h1.add h2)
      · exact Or.inr ⟨hc, (h2.2.add_grad h1.1.self_of_nhds).congr fun x y => add_comm _ _⟩
    · rcases h2 with h2 | h2
      · exact Or.inr ⟨hc, h1.2.add_grad h2.1.self_of_nhds⟩
      · exact Or.inr ⟨hc, h1.2.add h2.2⟩
  growth := by
    obtain ⟨b1, d1, hb1, hd1, h1⟩ := hm.growth
    obtain ⟨b2, d2, hb2, hd2, h2⟩ := hn.growth
    refine ⟨b1 + b2, d1 + d2, by linarith, by linarith, fun x y => ?_⟩
    have := h1 x y
    have := h2 x y
    simp only [addLens]
    linarith

/-- The lens with no members. -/
def massive_nil : (singlePlane ([] : List (LensFn ℝ))).Massive 0 where
  poles := ∅
  finite := Set.finite_empty
  pole := by simp
  off := by
    intro p _
    refine Or.inl ⟨Eventually.of_forall fun q => HasGrad.const _ _ _,
      ⟨0, 0, 0, ⟨HasGrad.const _ _ _, HasGrad.const _ _ _⟩, ?_⟩, ?_⟩
    · simp [singlePlane, singlePlaneConvergence]
    · simp [singlePlane, singlePlaneConvergence]
  growth := ⟨0, 0, le_rfl, le_rfl, fun x y => by simp [singlePlane, singlePlanePotential]⟩

theorem singlePlane_cons (m : LensFn ℝ) (l : List (LensFn ℝ)) :
    singlePlane (m :: l) = addLens m (singlePlane l) := by
  refine LensFn.ext' (fun x y => ?_) (fun x y => ?_) (fun x y => ?_)
  · rw [(C14_superposition (m :: l) x y).1, List.map_cons, List.sum_cons,
      ← (C14_superposition l x y).1]
    rfl
  · rw [(C14_superposition (m :: l) x y).2.1, List.map_cons, List.sum_cons,
      ← (C14_superposition l x y).2.1]
    rfl
  · rw [(C14_superposition (m :: l) x y).2.2, List.map_cons, List.sum_cons,
      ← (C14_superposition l x y).2.2]
    rfl

/-- A `SinglePlane` of any number of lenses of non-negative mass. -/
theorem massive_singlePlane (l : List (LensFn ℝ × ℝ)) (h : ∀ m ∈ l, Nonempty (m.1.Massive m.2)) :
    Nonempty ((singlePlane (l.map Prod.fst)).Massive (l.map Prod.snd).sum) := by
  induction l with
  | nil => exact ⟨massive_nil⟩
  | cons m l ih =>
    obtain ⟨h1⟩ := h m (by simp)
    obtain ⟨h2⟩ := ih fun m' hm' => h m' (by simp [hm'])
    rw [List.map_cons, List.map_cons, List.sum_cons, singlePlane_cons]
    exact ⟨h1.add h2⟩

/-- The lens as a `ThinLens` at redshift `z`. -/
def LensFn.thin (m : LensFn ℝ) (z : ℝ) : ThinLensFn ℝ := ⟨z, m.deflection, m.potential⟩

/-- Arrival time (in units of the time-delay factor) of a path through `p`. -/
noncomputable def arrival (m : LensFn ℝ) (bx bys : ℝ) (p : ℝ × ℝ) : ℝ :=
  ((p.1 - bx) ^ 2 + (p.2 - bys) ^ 2) / 2 - m.potential p.1 p.2

theorem timeDelay_arrival {m : LensFn ℝ} (e : MPEnv ℝ) (z zs : ℝ) {bx bys : ℝ} {p : ℝ × ℝ}
    (h : (m.thin z).raytrace p.1 p.2 = (bx, bys)) :
    (m.thin z).timeDelay e zs true true p.1 p.2
      = e.arcsec2ToDays (e.angDist z) (e.angDist zs) (e.angDist12 z zs) z * arrival m bx bys p := by
  obtain ⟨h1, h2⟩ := Prod.mk.inj h
  simp only [ThinLensFn.timeDelay, if_true, arrival, ← h1, ← h2, LensFn.thin]
  ring

theorem arrival_coercive {m : LensFn ℝ} {a : ℝ} (hm : m.Massive a) (ha : a < 1 / 2) (bx bys C : ℝ) :
    ∃ R, ∀ p, arrival m bx bys p ≤ C → ‖p‖ ≤ R := by
  obtain ⟨b, d, hb, hd, h⟩ := hm.growth
  have hk : 0 < 1 / 2 - a := by linarith
  set B := √(bx ^ 2 + bys ^ 2) with hB
  have hB0 : 0 ≤ B := Real.sqrt_nonneg _
  have hBB : B ^ 2 = bx ^ 2 + bys ^ 2 := Real.sq_sqrt (by positivity)
  refine ⟨(B + b + (d + |C|)) / (1 / 2 - a) + 1, fun p hp => ?_⟩
  set r := √(p.1 ^ 2 + p.2 ^ 2) with hr
  have hr0 : 0 ≤ r := Real.sqrt_nonneg _
  have hrr : r ^ 2 = p.1 ^ 2 + p.2 ^ 2 := Real.sq_sqrt (by positivity)
  have hn : ‖p‖ ≤ r := by
    rw [Prod.norm_def]
    apply max_le <;> rw [Real.norm_eq_abs] <;> apply Real.abs_le_sqrt
    · nlinarith [sq_nonneg p.2]
    · nlinarith [sq_nonneg p.1]
  refine hn.trans ?_
  by_contra hlt
  push Not at hlt
  have hcs : p.1 * bx + p.2 * bys ≤ r * B := by
    refine (le_abs_self _).trans (abs_le_of_sq_le_sq ?_ (by positivity))
    rw [mul_pow, hrr, hBB]
    nlinarith [sq_nonneg (p.1 * bys - p.2 * bx)]
  have h1 := h p.1 p.2
  have hp' : ((p.1 - bx) ^ 2 + (p.2 - bys) ^ 2) / 2 - m.potential p.1 p.2 ≤ C := hp
  have hC := le_abs_self C
  have hq : (1 / 2 - a) * r ^ 2 ≤ (B + b) * r + (d + |C|) := by
    rw [← hrr] at h1
    rw [Real.sqrt_sq hr0] at h1
    nlinarith [sq_nonneg bx, sq_nonneg bys]
  have h2 : B + b + (d + |C|) < (1 / 2 - a) * (r - 1) := by
    rw [mul_comm, ← div_lt_iff₀ hk]
    linarith
  have hD : 0 ≤ d + |C| := by positivity
  have hr1 : 1 < r := by
    have : 0 ≤ (B + b + (d + |C|)) / (1 / 2 - a) := by positivity
    linarith
  nlinarith [mul_pos (sub_pos.mpr hr1) hk, mul_lt_mul_of_pos_right h2 (by linarith : 0 < r)]

theorem LensFn.RegularAt.not_pole {m : LensFn ℝ} {p : ℝ × ℝ} (h : m.RegularAt p) : ¬ m.PoleAt p :=
  fun hp => not_tendsto_nhds_of_tendsto_atBot hp _ (h.continuousAt.tendsto.mono_left nhdsWithin_le_nhds)

/-- A path of least arrival time exists. -/
theorem exists_first {m : LensFn ℝ} {a : ℝ} (hm : m.Massive a) (ha : a < 1 / 2) (bx bys : ℝ) :
    ∃ p ∉ hm.poles, ∀ p' ∉ hm.poles, arrival m bx bys p ≤ arrival m bx bys p' := by
  have hg : Continuous fun p : ℝ × ℝ => ((p.1 - bx) ^ 2 + (p.2 - bys) ^ 2) / 2 := by fun_prop
  refine exists_min_off_poles hm.finite ?_ ?_ (arrival_coercive hm ha bx bys)
  · intro p hp
    exact hg.continuousAt.sub (off_continuousAt (hm.off p hp))
  · intro p hp
    have h1 : Tendsto (fun q : ℝ × ℝ => -m.potential q.1 q.2) (𝓝[≠] p) atTop :=
      tendsto_neg_atBot_atTop.comp (hm.pole p hp)
    have h2 := (hg.tendsto p).mono_left (nhdsWithin_le_nhds (s := {p}ᶜ))
    exact (h2.add_atTop h1).congr fun q => (sub_eq_add_neg _ _).symm

/-- What holds at a path of least arrival time. -/
theorem first_spec {m : LensFn ℝ} {a : ℝ} (hm : m.Massive a) {bx bys : ℝ} {p : ℝ × ℝ}
    (hp : p ∉ hm.poles) (hmin : ∀ p' ∉ hm.poles, arrival m bx bys p ≤ arrival m bx bys p') :
    m.RegularAt p ∧ (p.1 - (m.deflection p.1 p.2).1, p.2 - (m.deflection p.1 p.2).2) = (bx, bys) ∧
    ∀ M : M22 ℝ, HasJac (fun x y => (x - (m.deflection x y).1, y - (m.deflection x y).2))
        M.a00 M.a01 M.a10 M.a11 p.1 p.2 →
      0 ≤ M.a00 ∧ 0 ≤ M.a11 ∧ 0 ≤ M.a00 * M.a11 - M.a01 * M.a10 ∧
        M.a00 * M.a11 - M.a01 * M.a10 ≤ (1 - m.convergence p.1 p.2) ^ 2 ∧
        m.convergence p.1 p.2 ≤ 1 := by
  have hloc := isLocalMin_off_poles hm.finite hp hmin
  have hreg : m.RegularAt p := (hm.off p hp).resolve_right fun h => h.2.not_min bx bys hloc
  have hgrad : ∀ᶠ q : ℝ × ℝ in 𝓝 p, HasGrad (fun x y => arrival m bx bys (x, y))
      ((fun x y => (x - bx - (m.deflection x y).1, y - bys - (m.deflection x y).2)) q.1 q.2).1
      ((fun x y => (x - bx - (m.deflection x y).1, y - bys - (m.deflection x y).2)) q.1 q.2).2
      q.1 q.2 := by
    filter_upwards [hreg.1] with q hq
    have hx := (HasGrad.fst q.1 q.2).sub (HasGrad.const bx q.1 q.2)
    have hy := (HasGrad.snd q.1 q.2).sub (HasGrad.const bys q.1 q.2)
    have h1 := (((hx.mul hx).add (hy.mul hy)).const_mul (1 / 2)).sub hq
    have e : (fun x y => arrival m bx bys (x, y))
        = fun x y => 1 / 2 * ((x - bx) * (x - bx) + (y - bys) * (y - bys)) - m.potential x y := by
      funext x y
      simp only [arrival]
      ring
    rw [e]
    exact h1.congr (by ring) (by ring)
  have h0 := hgrad.self_of_nhds.eq_zero_of_min hloc
  refine ⟨hreg, ?_, fun M hM => ?_⟩
  · simp only at h0
    rw [Prod.mk.injEq]
    exact ⟨by linarith [h0.1], by linarith [h0.2]⟩
  · have hM' : HasJac (fun x y => (x - bx - (m.deflection x y).1, y - bys - (m.deflection x y).2))
        M.a00 M.a01 M.a10 M.a11 p.1 p.2 := by
      have e1 : (fun x y : ℝ => x - bx - (m.deflection x y).1) = fun x y => x - (m.deflection x y).1 - bx := by
        funext x y; ring
      have e2 : (fun x y : ℝ => y - bys - (m.deflection x y).2) = fun x y => y - (m.deflection x y).2 - bys := by
        funext x y; ring
      refine ⟨?_, ?_⟩
      · change HasGrad (fun x y : ℝ => x - bx - (m.deflection x y).1) _ _ _ _
        rw [e1]
        exact (hM.1.sub (HasGrad.const bx p.1 p.2)).congr (by ring) (by ring)
      · change HasGrad (fun x y : ℝ => y - bys - (m.deflection x y).2) _ _ _ _
        rw [e2]
        exact (hM.2.sub (HasGrad.const bys p.1 p.2)).congr (by ring) (by ring)
    obtain ⟨axx, axy, ayy, hJ, hk⟩ := hreg.2.1
    have u1 := hM.1.unique (((HasGrad.fst p.1 p.2).sub hJ.1))
    have u2 := hM.2.unique (((HasGrad.snd p.1 p.2).sub hJ.2))
    have hsym : M.a01 = M.a10 := by rw [u1.2, u2.1]
    have hform := second_order hgrad hM' hloc
    rw [← hsym] at hform ⊢
    obtain ⟨ha, hc, hd⟩ := det_nonneg_of_form hform
    have htr : (M.a00 + M.a11) / 2 = 1 - m.convergence p.1 p.2 := by
      rw [hk, u1.1, u2.2]
      ring
    refine ⟨ha, hc, hd, ?_, by linarith⟩
    rw [← htr]
    nlinarith [sq_nonneg (M.a00 - M.a11), sq_nonneg M.a01]

/-- Every source has a first image: among all images it has the smallest `time_delay`. -/
theorem C92_exists (m : LensFn ℝ) (a : ℝ) (hm : m.Massive a) (ha : a < 1 / 2) (e : MPEnv ℝ) (z zs : ℝ)
    (hF : 0 < e.arcsec2ToDays (e.angDist z) (e.angDist zs) (e.angDist12 z zs) z) (bx bys : ℝ) :
    ∃ p : ℝ × ℝ, m.RegularAt p ∧ (m.thin z).raytrace p.1 p.2 = (bx, bys) ∧
      ∀ p' : ℝ × ℝ, m.RegularAt p' → (m.thin z).raytrace p'.1 p'.2 = (bx, bys) →
        (m.thin z).timeDelay e zs true true p.1 p.2 ≤ (m.thin z).timeDelay e zs true true p'.1 p'.2 := by
  obtain ⟨p, hp, hmin⟩ := exists_first hm ha bx bys
  obtain ⟨h1, h2, -⟩ := first_spec hm hp hmin
  refine ⟨p, h1, h2, fun p' hr' hi' => ?_⟩
  have hp' : p' ∉ hm.poles := fun h => hr'.not_pole (hm.pole p' h)
  rw [timeDelay_arrival e z zs h2, timeDelay_arrival e z zs hi']
  exact mul_le_mul_of_nonneg_left (hmin p' hp') hF.le

/-- The image that arrives first has positive parity, lies where the convergence is at most one, and
is at least as bright as the source. -/
theorem C92_magnified (m : LensFn ℝ) (a : ℝ) (hm : m.Massive a) (ha : a < 1 / 2) (e : MPEnv ℝ) (z zs : ℝ)
    (hF : 0 < e.arcsec2ToDays (e.angDist z) (e.angDist zs) (e.angDist12 z zs) z) (bx bys : ℝ)
    (p : ℝ × ℝ) (hreg : m.RegularAt p) (himg : (m.thin z).raytrace p.1 p.2 = (bx, bys))
    (hfirst : ∀ p' : ℝ × ℝ, m.RegularAt p' → (m.thin z).raytrace p'.1 p'.2 = (bx, bys) →
      (m.thin z).timeDelay e zs true true p.1 p.2 ≤ (m.thin z).timeDelay e zs true true p'.1 p'.2)
    (M : M22 ℝ) (hM : HasJac (m.thin z).raytrace M.a00 M.a01 M.a10 M.a11 p.1 p.2) :
    m.convergence p.1 p.2 ≤ 1 ∧ 0 ≤ M.a00 * M.a11 - M.a01 * M.a10 ∧
      (M.a00 * M.a11 - M.a01 * M.a10 ≠ 0 →
        1 ≤ pixelMagnification M ∧ 1 / (1 - m.convergence p.1 p.2) ^ 2 ≤ pixelMagnification M) := by
  obtain ⟨q, hq, hmin⟩ := exists_first hm ha bx bys
  obtain ⟨h1, h2, -⟩ := first_spec hm hq hmin
  have hp : p ∉ hm.poles := fun h => hreg.not_pole (hm.pole p h)
  have hle := hfirst q h1 h2
  rw [timeDelay_arrival e z zs himg, timeDelay_arrival e z zs (p := q) h2] at hle
  have hle' := le_of_mul_le_mul_left hle hF
  obtain ⟨-, -, h3⟩ := first_spec hm hp (bx := bx) (bys := bys) fun p' hp' => hle'.trans (hmin p' hp')
  obtain ⟨-, -, hd, hd1, hk⟩ := h3 M hM
  have hκ := hreg.2.2
  refine ⟨hk, hd, fun hne => ?_⟩
  have hpos : 0 < M.a00 * M.a11 - M.a01 * M.a10 := lt_of_le_of_ne hd (Ne.symm hne)
  have hone : (1 - m.convergence p.1 p.2) ^ 2 ≤ 1 := by nlinarith
  rw [pixelMagnification, abs_of_pos hpos]
  exact ⟨by rw [le_div_iff₀ hpos]; linarith, one_div_le_one_div_of_le hpos hd1⟩

end Caustics

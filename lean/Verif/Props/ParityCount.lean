import Verif.Props.ParityJaffe
import Verif.Props.FirstImageLenses

/-!
C145: how many images a plane of masses makes at least.
-/

namespace Caustics

open FieldLens Filter Topology MeasureTheory

/-! ### Poles and cusps of a superposition -/

/-- Each member has a pole, a cusp or is regular, and so has the plane. -/
theorem LensFn.Massive.cases {m : LensFn ℝ} {a : ℝ} (h : m.Massive a) (p : ℝ × ℝ) :
    m.PoleAt p ∨ m.RegularAt p ∨ m.CuspAt p := by
  by_cases hp : p ∈ h.poles
  · exact Or.inl (h.pole p hp)
  · exact Or.inr (h.off p hp)

theorem LensFn.PoleAt.add {m n : LensFn ℝ} {p : ℝ × ℝ} (hm : m.PoleAt p)
    (hn : n.PoleAt p ∨ n.RegularAt p ∨ n.CuspAt p) : (addLens m n).PoleAt p := by
  rcases hn with hn | hn
  · exact hm.atBot_add_atBot hn
  · exact hm.atBot_add ((off_continuousAt hn).tendsto.mono_left nhdsWithin_le_nhds)

theorem addLens_comm (m n : LensFn ℝ) : addLens m n = addLens n m :=
  LensFn.ext' (fun _ _ => Prod.ext (add_comm _ _) (add_comm _ _)) (fun _ _ => add_comm _ _) fun _ _ => add_comm _ _

theorem plane_cases (l : List (LensFn ℝ)) (p : ℝ × ℝ) (h : ∀ m ∈ l, m.PoleAt p ∨ m.RegularAt p ∨ m.CuspAt p) :
    ((singlePlane l).PoleAt p ∨ (singlePlane l).RegularAt p ∨ (singlePlane l).CuspAt p) ∧
      ((∃ m ∈ l, m.PoleAt p) → (singlePlane l).PoleAt p) ∧
      (¬(singlePlane l).PoleAt p → (∃ m ∈ l, m.CuspAt p) → (singlePlane l).CuspAt p) := by
  induction l with
  | nil => exact ⟨massive_nil.cases p, by simp, by simp⟩
  | cons m l ih =>
    obtain ⟨h1, h2, h3⟩ := ih fun m hm => h m (List.mem_cons_of_mem _ hm)
    have hm := h m (by simp)
    rw [singlePlane_cons]
    have hp : (m.PoleAt p ∨ (singlePlane l).PoleAt p) → (addLens m (singlePlane l)).PoleAt p := by
      rintro (k | k)
      · exact k.add h1
      · rw [addLens_comm]
        exact k.add hm
    have hc : ∀ {m n : LensFn ℝ}, m.CuspAt p → (n.RegularAt p ∨ n.CuspAt p) → (addLens m n).CuspAt p := by
      intro m n hm hn
      refine ⟨hm.1.add (off_continuousAt hn), ?_⟩
      rcases hn with hn | hn
      · exact hm.2.add_grad hn.1.self_of_nhds
      · exact hm.2.add hn.2
    refine ⟨?_, ?_, ?_⟩
    · rcases hm with hm | hm
      · exact Or.inl (hp (Or.inl hm))
      · rcases h1 with h1 | h1
        · exact Or.inl (hp (Or.inr h1))
        · right
          rcases hm with hm | hm
          · rcases h1 with h1 | h1
            · exact Or.inl (hm.add h1)
            · rw [addLens_comm]
              exact Or.inr (hc h1 (Or.inl hm))
          · exact Or.inr (hc hm h1)
    · rintro ⟨n, hn, hnp⟩
      rcases List.mem_cons.1 hn with rfl | hn
      · exact hp (Or.inl hnp)
      · exact hp (Or.inr (h2 ⟨n, hn, hnp⟩))
    · rintro hnp ⟨n, hn, hcu⟩
      have k1 : ¬m.PoleAt p := fun k => hnp (hp (Or.inl k))
      have k2 : ¬(singlePlane l).PoleAt p := fun k => hnp (hp (Or.inr k))
      rcases List.mem_cons.1 hn with rfl | hn
      · exact hc hcu (h1.resolve_left k2)
      · rw [addLens_comm]
        exact hc (h3 k2 ⟨n, hn, hcu⟩) (hm.resolve_left k1)

theorem point_poleAt (x0 y0 Rein : ℝ) (hR : 0 < Rein) : (pointLens x0 y0 Rein).PoleAt (x0, y0) := by
  have e : ∀ x y, pointPotential x0 y0 Rein 0 x y = Rein ^ 2 * Real.log (√((x - x0) ^ 2 + (y - y0) ^ 2)) := by
    intro x y; simp [pointPotential, translateRotate]
  have hc : Continuous fun q : ℝ × ℝ => √((q.1 - x0) ^ 2 + (q.2 - y0) ^ 2) := by fun_prop
  have h0 : Tendsto (fun q : ℝ × ℝ => √((q.1 - x0) ^ 2 + (q.2 - y0) ^ 2)) (𝓝[≠] (x0, y0)) (𝓝[>] 0) := by
    refine tendsto_nhdsWithin_iff.mpr ⟨?_, ?_⟩
    · have := (hc.tendsto (x0, y0)).mono_left (nhdsWithin_le_nhds (s := {(x0, y0)}ᶜ))
      simpa using this
    · filter_upwards [self_mem_nhdsWithin] with q hq
      exact radius_pos (sub_ne_zero_or (x := q.1) (y := q.2) hq)
  exact ((Real.tendsto_log_nhdsGT_zero.comp h0).const_mul_atBot (by positivity)).congr fun q => (e q.1 q.2).symm

theorem sis_cuspAt (x0 y0 Rein : ℝ) (hR : 0 < Rein) : (sisLens x0 y0 Rein).CuspAt (x0, y0) := by
  have e : ∀ x y, sisPotential x0 y0 Rein 0 x y = Rein * √((x - x0) ^ 2 + (y - y0) ^ 2) := by
    intro x y; simp [sisPotential, translateRotate]
  refine ⟨?_, hasCusp_of_cone hR fun x y => ?_⟩
  · simp only [sisLens, e]
    fun_prop
  · simp [sisLens, e]

theorem sie_cuspAt (x0 y0 q phi Rein : ℝ) (hq : 0 < q) (hq1 : q < 1) (hR : 0 < Rein) :
    (sieLens x0 y0 q phi Rein 0).CuspAt (x0, y0) := by
  obtain ⟨b, hb, hgr⟩ := sie_growth x0 y0 q phi Rein 0 hq hq1 hR.le (Or.inl rfl)
  refine ⟨?_, hasCusp_of_cone (by positivity) (sie_cone x0 y0 q phi Rein hq hq1 hR)⟩
  have h0 : siePotential x0 y0 q phi Rein 0 x0 y0 = 0 := by
    rw [siePotential_frame x0 y0 q phi Rein 0 x0 y0 hq1.ne]
    simp [translateRotate]
  have hc : Continuous fun r : ℝ × ℝ => b * √((r.1 - x0) ^ 2 + (r.2 - y0) ^ 2) := by fun_prop
  have ht := hc.tendsto (x0, y0)
  simp only [sub_self, ne_eq, OfNat.ofNat_ne_zero, not_false_eq_true, zero_pow, add_zero, Real.sqrt_zero, mul_zero] at ht
  change Tendsto (fun r : ℝ × ℝ => siePotential x0 y0 q phi Rein 0 r.1 r.2) (𝓝 (x0, y0))
    (𝓝 (siePotential x0 y0 q phi Rein 0 x0 y0))
  rw [h0]
  refine tendsto_of_tendsto_of_tendsto_of_le_of_le tendsto_const_nhds ht (fun r => ?_) (fun r => ?_)
  · have := sie_cone x0 y0 q phi Rein hq hq1 hR r.1 r.2
    rw [h0] at this
    have h1 : 0 ≤ Rein * √q / 2 * √((r.1 - x0) ^ 2 + (r.2 - y0) ^ 2) := by positivity
    show 0 ≤ siePotential x0 y0 q phi Rein 0 r.1 r.2
    linarith
  · have := hgr r.1 r.2
    rw [mul_zero, zero_mul, add_zero] at this
    exact this

/-! ### The same plane in both descriptions -/

namespace MassiveLens

/-- The lens object as a member of a plane, with the values it does not have. -/
noncomputable def member (z : ℝ) : MassiveLens → PlaneMember := by
  classical exact fun
    | sis x0 y0 Rein => .sis x0 y0 Rein
    | point x0 y0 Rein => .field (.point x0 y0 Rein)
    | sie x0 y0 q phi Rein s => if s = 0 then singularSie z x0 y0 q phi Rein else coredSie z x0 y0 q phi Rein s
    | sheet x0 y0 kappa => .field (.sheet x0 y0 kappa)
    | shear x0 y0 g1 g2 => .field (.shear x0 y0 g1 g2)
    | jaffe L => jaffeMember z L

theorem member_singular (z x0 y0 q phi Rein : ℝ) :
    (sie x0 y0 q phi Rein 0).member z = singularSie z x0 y0 q phi Rein := if_pos rfl

theorem member_cored (z x0 y0 q phi Rein : ℝ) {s : ℝ} (hs : s ≠ 0) :
    (sie x0 y0 q phi Rein s).member z = coredSie z x0 y0 q phi Rein s := if_neg hs

theorem core_pos {x0 y0 q phi Rein s : ℝ} (h : (sie x0 y0 q phi Rein s).Ok) (hc : s ≠ 0) : 0 < s := by
  rcases h.2.2.2 with h | h
  · exact absurd h hc
  · exact lt_of_lt_of_le (by norm_num) h

theorem member_valid {m : MassiveLens} (z : ℝ) (h : m.Ok) : (m.member z).Valid := by
  cases m with
  | sis x0 y0 R => exact h
  | point x0 y0 R => exact (h : 0 < R).ne'
  | sie x0 y0 q phi R s =>
    by_cases hs : s = 0
    · subst hs
      rw [member_singular]
      exact C143_singular_sie z x0 y0 q phi R h.1 h.2.1 h.2.2.1
    · rw [member_cored _ _ _ _ _ _ hs]
      exact C143_cored_sie z x0 y0 q phi R s h.1 h.2.1 h.2.2.1.le (core_pos h hs)
  | sheet => exact trivial
  | shear => exact trivial
  | jaffe L => exact C143_pseudo_jaffe z L h.1

theorem member_kinks {m : MassiveLens} {z : ℝ} {p : ℝ × ℝ} (h : p ∈ (m.member z).kinkSet) :
    ∃ L, m = jaffe L ∧ p = (L.x0, L.y0) := by
  cases m with
  | sie x0 y0 q phi R s =>
    by_cases hs : s = 0
    · subst hs
      rw [member_singular] at h
      simp [singularSie, PlaneMember.kinkSet] at h
    · rw [member_cored _ _ _ _ _ _ hs] at h
      simp [coredSie, PlaneMember.kinkSet] at h
  | jaffe L => exact ⟨L, rfl, Finset.mem_singleton.1 h⟩
  | _ => simp [member, PlaneMember.kinkSet] at h

theorem member_defl {m : MassiveLens} (z : ℝ) (h : m.Ok) {p : ℝ × ℝ} (hp : (m.member z).pole ≠ some p)
    (hk : p ∉ (m.member z).kinkSet) :
    (((m.member z).cd ⟨p.1, p.2⟩).re, ((m.member z).cd ⟨p.1, p.2⟩).im) = m.lens.deflection p.1 p.2 := by
  have hv := PlaneMember.value (member_valid z h) z p hk hp
  have hne : ∀ {x0 y0 : ℝ}, (x0, y0) ≠ p → √((p.1 - x0) ^ 2 + (p.2 - y0) ^ 2) + 0 ≠ 0 := by
    intro x0 y0 k
    rw [add_zero]
    exact (radius_pos (sub_ne_zero_or (x := p.1) (y := p.2) fun e => k e.symm)).ne'
  refine Option.some.inj (hv.symm.trans ?_)
  cases m with
  | sis x0 y0 R => exact sisDeflectionOpt_eq (hne fun e => hp (by rw [← e]; rfl))
  | point x0 y0 R => exact pointDeflectionOpt_eq (hne fun e => hp (by rw [← e]; rfl))
  | sie x0 y0 q phi R s =>
    by_cases hs : s = 0
    · subst hs
      rw [member_singular] at hp ⊢
      exact sieDeflectionOpt_eq h.1 h.2.1.le le_rfl (Or.inr fun e => hp (congrArg some e.symm))
    · rw [member_cored _ _ _ _ _ _ hs]
      exact sieDeflectionOpt_eq h.1 h.2.1.le (core_pos h hs).le (Or.inl (core_pos h hs))
  | sheet => rfl
  | shear => rfl
  | jaffe L =>
    have e := (C77_off_centre (x := p.1) (y := p.2)).2.2.2.2 L h.1 fun e => hk (Finset.mem_singleton.2 e)
    rwa [show { L with s := 0 } = L by rw [← h.2.2]] at e

end MassiveLens

open MassiveLens

theorem massive_defl (z : ℝ) (l : List MassiveLens) (hok : ∀ m ∈ l, m.Ok) {p : ℝ × ℝ}
    (hp : p ∉ planePoles (l.map (member z))) (hk : p ∉ planeKinks (l.map (member z))) :
    (((l.map (member z)).map fun m : PlaneMember => m.cd ⟨p.1, p.2⟩).sum.re, ((l.map (member z)).map fun m : PlaneMember => m.cd ⟨p.1, p.2⟩).sum.im) =
      (singlePlane (l.map lens)).deflection p.1 p.2 := by
  rw [mem_planePoles] at hp
  rw [mem_planeKinks] at hk
  push Not at hp hk
  induction l with
  | nil => simp [singlePlane, singlePlaneDeflection]
  | cons m l ih =>
    have ih := ih (fun m hm => hok m (List.mem_cons_of_mem _ hm))
      (fun m hm => hp m (List.mem_cons_of_mem _ hm)) fun m hm => hk m (List.mem_cons_of_mem _ hm)
    have hm := member_defl z (hok m (by simp)) (hp _ (by simp)) (hk _ (by simp))
    rw [List.map_cons, List.map_cons, List.sum_cons, List.map_cons, singlePlane_cons, Complex.add_re, Complex.add_im]
    have e : (addLens m.lens (singlePlane (l.map lens))).deflection p.1 p.2 =
      m.lens.deflection p.1 p.2 + (singlePlane (l.map lens)).deflection p.1 p.2 := rfl
    rw [e, ← hm, ← ih]
    rfl

theorem massive_kinks {z : ℝ} {l : List MassiveLens} {p : ℝ × ℝ} (h : p ∈ planeKinks (l.map (member z))) :
    ∃ L, jaffe L ∈ l ∧ p = (L.x0, L.y0) := by
  rw [mem_planeKinks] at h
  obtain ⟨n, hn, h⟩ := h
  obtain ⟨m, hm, rfl⟩ := List.mem_map.1 hn
  obtain ⟨L, rfl, e⟩ := member_kinks h
  exact ⟨L, hm, e⟩

theorem massive_value (z : ℝ) (l : List MassiveLens) (hok : ∀ m ∈ l, m.Ok) {p : ℝ × ℝ}
    (hp : p ∉ planePoles (l.map (member z))) (hk : p ∉ planeKinks (l.map (member z))) :
    raytraceOpt (singlePlaneO z ((l.map (member z)).map (PlaneMember.lens z))).reduced p.1 p.2 =
      some (p.1 - ((singlePlane (l.map lens)).deflection p.1 p.2).1, p.2 - ((singlePlane (l.map lens)).deflection p.1 p.2).2) := by
  have hv : ∀ n ∈ l.map (member z), n.Valid := by
    intro n hn
    obtain ⟨m, hm, rfl⟩ := List.mem_map.1 hn
    exact member_valid z (hok m hm)
  refine (plane_value z _ hv p hk _).2 ⟨hp, ?_⟩
  rw [planeMap, ← massive_defl z l hok hp hk]
  refine Complex.ext ?_ ?_ <;> simp

/-- The first image of a source in a plane of masses has positive parity. -/
theorem massive_first (z : ℝ) (l : List MassiveLens) (hok : ∀ m ∈ l, m.Ok)
    (hsum : (l.map atInfinity).sum < 1) (b : ℝ × ℝ) (hg : Generic z (l.map (member z)) b) :
    ∃ p ∈ planeImages z (l.map (member z)) b, ∃ J : M22 ℝ, PlaneJacobian z (l.map (member z)) p J ∧
      0 ≤ J.a00 * J.a11 - J.a01 * J.a10 ∧ J.a00 * J.a11 - J.a01 * J.a10 ≤ 1 := by
  set S := singlePlane (l.map lens) with hS
  have hm := massive_singlePlane (l.map fun m => (m.lens, m.atInfinity / 2)) (by
    intro m hm
    obtain ⟨m', hm', rfl⟩ := List.mem_map.mp hm
    exact m'.massive (hok m' hm'))
  rw [List.map_map, List.map_map] at hm
  have e1 : (Prod.fst ∘ fun m : MassiveLens => (m.lens, m.atInfinity / 2)) = MassiveLens.lens := rfl
  have e2 : (l.map (Prod.snd ∘ fun m : MassiveLens => (m.lens, m.atInfinity / 2))).sum
      = (l.map MassiveLens.atInfinity).sum / 2 := by
    clear hm hok hsum hS S hg
    induction l with
    | nil => simp
    | cons m l ih =>
      rw [List.map_cons, List.sum_cons, List.map_cons, List.sum_cons, ih]
      simp only [Function.comp]
      ring
  rw [e1, e2, ← hS] at hm
  obtain ⟨hm⟩ := hm
  obtain ⟨p, hp, hmin⟩ := exists_first hm (by linarith) b.1 b.2
  have hloc := isLocalMin_off_poles hm.finite hp hmin
  obtain ⟨hreg, himg, hjac⟩ := first_spec hm hp hmin
  obtain ⟨-, k2, k3⟩ := plane_cases (l.map lens) p (by
    intro n hn
    obtain ⟨m, hm', rfl⟩ := List.mem_map.1 hn
    obtain ⟨h⟩ := m.massive (hok m hm')
    exact h.cases p)
  have hnp : ¬S.PoleAt p := hreg.not_pole
  have hpole : p ∉ planePoles (l.map (member z)) := by
    rw [mem_planePoles]
    rintro ⟨n, hn, h⟩
    obtain ⟨m, hml, rfl⟩ := List.mem_map.1 hn
    cases m with
    | sis x0 y0 R =>
      have e : (x0, y0) = p := Option.some.inj h
      have := k3 hnp ⟨_, List.mem_map.2 ⟨_, hml, rfl⟩, e ▸ sis_cuspAt x0 y0 R (hok _ hml)⟩
      exact this.2.not_min b.1 b.2 hloc
    | point x0 y0 R =>
      have e : (x0, y0) = p := Option.some.inj h
      exact hnp (k2 ⟨_, List.mem_map.2 ⟨_, hml, rfl⟩, e ▸ point_poleAt x0 y0 R (hok _ hml)⟩)
    | sie x0 y0 q phi R s =>
      by_cases hs : s = 0
      · subst hs
        rw [member_singular] at h
        have e : (x0, y0) = p := Option.some.inj h
        have hk := hok _ hml
        have := k3 hnp ⟨_, List.mem_map.2 ⟨_, hml, rfl⟩, e ▸ sie_cuspAt x0 y0 q phi R hk.1 hk.2.1 hk.2.2.1⟩
        exact this.2.not_min b.1 b.2 hloc
      · rw [member_cored _ _ _ _ _ _ hs] at h
        simp [coredSie, PlaneMember.pole] at h
    | sheet => simp [member, PlaneMember.pole, place] at h
    | shear => simp [member, PlaneMember.pole, place] at h
    | jaffe L => simp [member, jaffeMember, PlaneMember.pole] at h
  obtain ⟨axx, axy, ayy, hJ, hκ⟩ := hreg.2.1
  have hM : HasJac (fun x y => (x - (S.deflection x y).1, y - (S.deflection x y).2)) (1 - axx) (0 - axy) (0 - axy) (1 - ayy)
      p.1 p.2 := ⟨(HasGrad.fst p.1 p.2).sub hJ.1, (HasGrad.snd p.1 p.2).sub hJ.2⟩
  have hF : ContinuousAt (fun q : ℝ × ℝ => (q.1 - (S.deflection q.1 q.2).1, q.2 - (S.deflection q.1 q.2).2)) p :=
    (HasFDerivAt.continuousAt hM.1).prodMk (HasFDerivAt.continuousAt hM.2)
  have hkink : p ∉ planeKinks (l.map (member z)) := fun hk => by
    refine (hg.kink p hk).2 ⟨fun q => (q.1 - (S.deflection q.1 q.2).1, q.2 - (S.deflection q.1 q.2).2), ?_, ?_⟩
    · filter_upwards [off_special (l := l.map (member z)) p] with q hq
      exact massive_value z l hok hq.1 hq.2
    · have := hF.tendsto
      rw [show (p.1 - (S.deflection p.1 p.2).1, p.2 - (S.deflection p.1 p.2).2) = b from himg] at this
      exact this.mono_left nhdsWithin_le_nhds
  have hev : ∀ᶠ q in 𝓝 p, q ∉ planePoles (l.map (member z)) ∪ planeKinks (l.map (member z)) :=
    (Finset.finite_toSet _).isClosed.isOpen_compl.mem_nhds fun h => (Finset.mem_union.1 h).elim hpole hkink
  obtain ⟨-, -, j3, j4, j5⟩ := hjac ⟨1 - axx, 0 - axy, 0 - axy, 1 - ayy⟩ hM
  refine ⟨p, ?_, ⟨1 - axx, 0 - axy, 0 - axy, 1 - ayy⟩, ⟨_, ?_, hM⟩, j3, j4.trans ?_⟩
  · exact (massive_value z l hok hpole hkink).trans (congrArg some himg)
  · filter_upwards [hev] with q hq
    rw [Finset.mem_union, not_or] at hq
    exact massive_value z l hok hq.1 hq.2
  · have := hreg.2.2
    nlinarith

theorem far_field (z : ℝ) (l : List MassiveLens) (hok : ∀ m ∈ l, m.Ok) (hsum : (l.map atInfinity).sum < 1) :
    ((l.map (member z)).map PlaneMember.gam).sum.1 ^ 2 + ((l.map (member z)).map PlaneMember.gam).sum.2 ^ 2 <
      (1 - ((l.map (member z)).map PlaneMember.kap).sum) ^ 2 := by
  have hn : ∀ g : ℝ × ℝ, ‖(⟨g.1, g.2⟩ : ℂ)‖ = √(g.1 ^ 2 + g.2 ^ 2) := by
    intro g
    rw [Complex.norm_def, Complex.normSq_apply]
    ring_nf
  have h : ‖(⟨((l.map (member z)).map PlaneMember.gam).sum.1, ((l.map (member z)).map PlaneMember.gam).sum.2⟩ : ℂ)‖ +
      ((l.map (member z)).map PlaneMember.kap).sum ≤ (l.map atInfinity).sum := by
    clear hsum
    induction l with
    | nil =>
      simp only [List.map_nil, List.sum_nil, Prod.fst_zero, Prod.snd_zero, add_zero]
      exact (norm_zero (E := ℂ)).le
    | cons m l ih =>
      have ih := ih fun m hm => hok m (List.mem_cons_of_mem _ hm)
      simp only [List.map_cons, List.sum_cons, Prod.fst_add, Prod.snd_add]
      have e : ∀ a b c d : ℝ, (⟨a + b, c + d⟩ : ℂ) = ⟨a, c⟩ + ⟨b, d⟩ := fun a b c d => Complex.ext rfl rfl
      rw [e]
      have h1 := norm_add_le (⟨(m.member z).gam.1, (m.member z).gam.2⟩ : ℂ)
        ⟨((l.map (member z)).map PlaneMember.gam).sum.1, ((l.map (member z)).map PlaneMember.gam).sum.2⟩
      have h2 : ‖(⟨(m.member z).gam.1, (m.member z).gam.2⟩ : ℂ)‖ + (m.member z).kap ≤ m.atInfinity := by
        rw [hn]
        cases m with
        | sie x0 y0 q phi R s =>
          by_cases hs : s = 0
          · subst hs
            rw [member_singular]
            simp [singularSie, PlaneMember.gam, PlaneMember.kap, atInfinity]
          · rw [member_cored _ _ _ _ _ _ hs]
            simp [coredSie, PlaneMember.gam, PlaneMember.kap, atInfinity]
        | jaffe L => simp [member, jaffeMember, PlaneMember.gam, PlaneMember.kap, atInfinity]
        | _ => simp [member, PlaneMember.gam, PlaneMember.kap, atInfinity, kappa, gamma]
      linarith
  have h0 := norm_nonneg
    (⟨((l.map (member z)).map PlaneMember.gam).sum.1, ((l.map (member z)).map PlaneMember.gam).sum.2⟩ : ℂ)
  have h2 := pow_lt_pow_left₀ (lt_of_le_of_lt (le_sub_iff_add_le.2 h) (sub_lt_sub_right hsum _)) h0 two_ne_zero
  rwa [hn, Real.sq_sqrt (by positivity)] at h2

/-- **As many images as masses, and one more.** A plane of any number of point masses, isothermal spheres and ellipsoids
with or without a core, pseudo-Jaffe lenses, sheets and shears, the sheets and shears adding up to less than one. For almost every source there
is an image of positive parity that is not fainter than the source, there is at least one image of negative parity for each
place with point masses and for each singular isothermal sphere or ellipsoid whose cut covers the source, and in all one
more image than these. -/
theorem C145_at_least (z : ℝ) (l : List MassiveLens) (hok : ∀ m ∈ l, m.Ok)
    (hsum : (l.map atInfinity).sum < 1) (hs : Separate z (l.map (member z))) :
    ∀ᵐ b : ℝ × ℝ, (planeImages z (l.map (member z)) b).Finite ∧
      ∃ J : ℝ × ℝ → M22 ℝ, (∀ p ∈ planeImages z (l.map (member z)) b, PlaneJacobian z (l.map (member z)) p (J p)) ∧
        (∃ p ∈ planeImages z (l.map (member z)) b, 0 < (J p).a00 * (J p).a11 - (J p).a01 * (J p).a10 ∧
          1 ≤ pixelMagnification (J p)) ∧
        (planeStars (l.map (member z))).card + {p | CutCovers z (l.map (member z)) b p}.ncard ≤
          {p ∈ planeImages z (l.map (member z)) b | (J p).a00 * (J p).a11 - (J p).a01 * (J p).a10 < 0}.ncard ∧
        1 + (planeStars (l.map (member z))).card + {p | CutCovers z (l.map (member z)) b p}.ncard ≤
          (planeImages z (l.map (member z)) b).ncard := by
  have hv : ∀ n ∈ l.map (member z), n.Valid := by
    intro n hn
    obtain ⟨m, hm, rfl⟩ := List.mem_map.1 hn
    exact member_valid z (hok m hm)
  have hdet := far_field z l hok hsum
  filter_upwards [C143_almost_every_regular z _ hv hs] with b hb
  obtain ⟨hg, J, hJ, hreg⟩ := hb
  obtain ⟨hfin, h⟩ := C143_parities z _ hv b hg hdet.ne' hJ hreg
  obtain ⟨p, hp, J', hJ', hpos, hle⟩ := massive_first z l hok hsum b hg
  have e := (hJ p hp).unique hJ'
  rw [← e] at hpos hle
  have hpos' := lt_of_le_of_ne hpos (hreg p hp).symm
  rw [if_pos hdet] at h
  have h1 : 0 < {p ∈ planeImages z (l.map (member z)) b | 0 < (J p).a00 * (J p).a11 - (J p).a01 * (J p).a10}.ncard :=
    (Set.ncard_pos (hfin.subset fun p hp => hp.1)).2 ⟨p, hp, hpos'⟩
  have h2 : {p ∈ planeImages z (l.map (member z)) b | 0 < (J p).a00 * (J p).a11 - (J p).a01 * (J p).a10}.ncard +
      {p ∈ planeImages z (l.map (member z)) b | (J p).a00 * (J p).a11 - (J p).a01 * (J p).a10 < 0}.ncard ≤
      (planeImages z (l.map (member z)) b).ncard := by
    rw [← Set.ncard_union_eq ?_ (hfin.subset fun p hp => hp.1) (hfin.subset fun p hp => hp.1)]
    · exact Set.ncard_le_ncard (fun p hp => hp.elim (fun h => h.1) fun h => h.1) hfin
    · rw [Set.disjoint_left]
      exact fun p h1 h2 => lt_asymm h1.2 h2.2
  refine ⟨hfin, J, hJ, ⟨p, hp, hpos', ?_⟩, by omega, by omega⟩
  rw [pixelMagnification, abs_of_pos hpos', le_div_iff₀ hpos']
  linarith

/-- A plane of point masses, sheets, shears, cored ellipsoids and pseudo-Jaffe lenses: at least one image more than point masses. -/
theorem C145_stars (z : ℝ) (l : List MassiveLens) (hok : ∀ m ∈ l, m.Ok)
    (hsum : (l.map atInfinity).sum < 1) (hns : ∀ m ∈ l, (m.member z).cusp = none) :
    ∀ᵐ b : ℝ × ℝ, (planeImages z (l.map (member z)) b).Finite ∧
      1 + (planeStars (l.map (member z))).card ≤ (planeImages z (l.map (member z)) b).ncard := by
  have hs : Separate z (l.map (member z)) := by
    intro pre post n p h hn
    have h1 : n ∈ l.map (member z) := by simp [h]
    obtain ⟨m, hm, rfl⟩ := List.mem_map.1 h1
    rw [hns m hm] at hn
    simp at hn
  filter_upwards [C145_at_least z l hok hsum hs] with b hb
  obtain ⟨h1, J, -, -, -, h2⟩ := hb
  exact ⟨h1, by omega⟩

/-- Singular isothermal spheres and ellipsoids and point masses at different places in the field of sheets and shears. -/
theorem C145_apart (z : ℝ) (l : List MassiveLens) (hok : ∀ m ∈ l, m.Ok)
    (hsum : (l.map atInfinity).sum < 1) (hapart : (l.filterMap fun m => (m.member z).pole).Nodup)
    (hj : ∀ L, jaffe L ∈ l → ∀ m ∈ l, (m.member z).pole ≠ some (L.x0, L.y0)) :
    ∀ᵐ b : ℝ × ℝ, (planeImages z (l.map (member z)) b).Finite ∧
      1 + (planeStars (l.map (member z))).card + {p | CutCovers z (l.map (member z)) b p}.ncard ≤
        (planeImages z (l.map (member z)) b).ncard := by
  have hv : ∀ n ∈ l.map (member z), n.Valid := by
    intro n hn
    obtain ⟨m, hm, rfl⟩ := List.mem_map.1 hn
    exact member_valid z (hok m hm)
  have hs : Separate z (l.map (member z)) := by
    intro pre post n p h hcp
    have hpk : p ∉ planeKinks (l.map (member z)) := fun hk => by
      obtain ⟨L, hL, e⟩ := massive_kinks hk
      obtain ⟨m, hm, e'⟩ := List.mem_map.1 (show n ∈ l.map (member z) by simp [h])
      refine hj L hL m hm ?_
      rw [e', ← e]
      exact cusp_pole hcp
    refine ⟨hpk, ?_⟩
    have hnd : ((pre ++ n :: post).filterMap PlaneMember.pole).Nodup := by
      rw [← h, List.filterMap_map]
      exact hapart
    have hsub : ∀ n' ∈ pre ++ post, n' ∈ l.map (member z) := by
      intro n' hn
      rw [h]
      exact mem_rest hn
    have hp : p ∉ planePoles (pre ++ post) := by
      rw [mem_planePoles]
      rintro ⟨n', hn, e⟩
      rw [List.filterMap_append, List.filterMap_cons_some (b := p) (cusp_pole hcp), List.nodup_append] at hnd
      rcases List.mem_append.1 hn with hn | hn
      · exact hnd.2.2 _ (List.mem_filterMap.2 ⟨n', hn, e⟩) _ (by simp) rfl
      · exact (List.nodup_cons.1 hnd.2.1).1 (List.mem_filterMap.2 ⟨n', hn, e⟩)
    have hk : p ∉ planeKinks (pre ++ post) := by
      rw [mem_planeKinks]
      rintro ⟨n', hn, e⟩
      exact hpk (mem_planeKinks.2 ⟨n', hsub n' hn, e⟩)
    set c : ℂ := planeMap (pre ++ post) 0 ⟨p.1, p.2⟩ with hcdef
    refine ⟨(c.re, c.im), (plane_value z (pre ++ post) (fun n hn => hv n (hsub n hn)) p hk _).2 ⟨hp, ?_⟩⟩
    have e0 : planeMap (pre ++ post) (c.re, c.im) ⟨p.1, p.2⟩ = planeMap (pre ++ post) 0 ⟨p.1, p.2⟩ - c := by
      simp only [planeMap]
      refine Complex.ext ?_ ?_ <;> simp
    rw [e0, hcdef, sub_self]
  filter_upwards [C145_at_least z l hok hsum hs] with b hb
  obtain ⟨h1, J, -, -, -, h2⟩ := hb
  exact ⟨h1, h2⟩

/-- A plane that inverts far away: a negative image more than point masses and covering cuts. -/
theorem C145_inverted (z : ℝ) (l : List PlaneMember) (hl : ∀ m ∈ l, m.Valid) (hs : Separate z l)
    (hdet : (1 - (l.map PlaneMember.kap).sum) ^ 2 < (l.map PlaneMember.gam).sum.1 ^ 2 + (l.map PlaneMember.gam).sum.2 ^ 2) :
    ∀ᵐ b : ℝ × ℝ, (planeImages z l b).Finite ∧
      ∃ J : ℝ × ℝ → M22 ℝ, (∀ p ∈ planeImages z l b, PlaneJacobian z l p (J p)) ∧
        1 + (planeStars l).card + {p | CutCovers z l b p}.ncard ≤
          {p ∈ planeImages z l b | (J p).a00 * (J p).a11 - (J p).a01 * (J p).a10 < 0}.ncard := by
  filter_upwards [C143_almost_every_regular z _ hl hs] with b hb
  obtain ⟨hg, J, hJ, hreg⟩ := hb
  obtain ⟨hfin, h⟩ := C143_parities z _ hl b hg hdet.ne hJ hreg
  rw [if_neg (not_lt.2 hdet.le)] at h
  exact ⟨hfin, J, hJ, by omega⟩

/-- Three stars and an outer shear: at least four images. -/
example (z : ℝ) : ∀ᵐ b : ℝ × ℝ, 4 ≤ (planeImages z ([MassiveLens.point 0 0 1, .point 1 0 1, .point 0 1 2,
    .shear 0 0 (3 / 10) 0].map (member z)) b).ncard := by
  have hst : planeStars ([MassiveLens.point 0 0 1, .point 1 0 1, .point 0 1 2, .shear 0 0 (3 / 10) 0].map (member z)) =
      {((0, 0) : ℝ × ℝ), (1, 0), (0, 1)} := by
    ext p
    simp [mem_planeStars, member, PlaneMember.starAt, place, eq_comm]
  have h := C145_stars z [MassiveLens.point 0 0 1, .point 1 0 1, .point 0 1 2, .shear 0 0 (3 / 10) 0]
    (by simp [MassiveLens.Ok]) (by
      simp only [List.map_cons, List.map_nil, atInfinity, List.sum_cons, List.sum_nil]
      rw [show ((3 : ℝ) / 10) ^ 2 + 0 ^ 2 = (3 / 10) ^ 2 by ring, Real.sqrt_sq (by norm_num)]
      norm_num) (by simp [member, PlaneMember.cusp])
  filter_upwards [h] with b hb
  have h2 := hb.2
  rw [hst, Finset.card_insert_of_notMem (by simp), Finset.card_pair (by simp)] at h2
  exact h2

/-- A singular galaxy with a star beside it: almost every source within the cut has at least three images. -/
example (z : ℝ) : ∀ᵐ b : ℝ × ℝ, (4 - b.1) ^ 2 + (0 - b.2) ^ 2 < 1 ^ 2 →
    3 ≤ (planeImages z ([MassiveLens.sis 3 0 1, .point 4 0 1].map (member z)) b).ncard := by
  have hst : planeStars ([MassiveLens.sis 3 0 1, .point 4 0 1].map (member z)) = {((4, 0) : ℝ × ℝ)} := by
    ext p
    simp [mem_planeStars, member, PlaneMember.starAt, place, eq_comm]
  have h := C145_apart z [MassiveLens.sis 3 0 1, .point 4 0 1] (by simp [MassiveLens.Ok])
    (by simp [atInfinity]) (by
      simp only [List.filterMap_cons, List.filterMap_nil, member, PlaneMember.pole, place, List.nodup_cons]
      norm_num) (by simp)
  filter_upwards [h] with b hb hin
  have hcut : {p | CutCovers z ([MassiveLens.sis 3 0 1, .point 4 0 1].map (member z)) b p} = {(3, 0)} := by
    ext p
    rw [Set.mem_ofPred_eq, Set.mem_singleton_iff]
    constructor
    · rintro ⟨pre, post, m, c, e, hm, -, -⟩
      have : m ∈ [MassiveLens.sis 3 0 1, .point 4 0 1].map (member z) := by simp [e]
      simp only [member, List.map_cons, List.map_nil, List.mem_cons, List.not_mem_nil, or_false] at this
      rcases this with rfl | rfl
      · exact (Option.some.inj hm).symm
      · simp [PlaneMember.cusp] at hm
    · rintro rfl
      refine ⟨[], [.field (.point 4 0 1)], .sis 3 0 1, (4, 0), rfl, rfl, ?_, hin⟩
      refine (plane_value z [.field (.point 4 0 1)] ?_ (3, 0) ?_ (4, 0)).2 ⟨?_, ?_⟩
      · simp [PlaneMember.Valid, FieldLens.Ok]
      · rw [mem_planeKinks]
        simp [PlaneMember.kinkSet]
      · rw [mem_planePoles]
        simp [PlaneMember.pole, place]
      · have e : (starRingEnd ℂ) (⟨3, 0⟩ : ℂ) - (starRingEnd ℂ) (⟨4, 0⟩ : ℂ) = -1 := by
          refine Complex.ext ?_ ?_ <;> simp
          norm_num
        simp only [planeMap, List.map_cons, List.map_nil, List.sum_cons, List.sum_nil, PlaneMember.cd, cdefl, e]
        refine Complex.ext ?_ ?_ <;> simp
        norm_num
  have h2 := hb.2
  rw [hst, hcut, Finset.card_singleton, Set.ncard_singleton] at h2
  exact h2

/-- Two singular ellipsoids with their own axes: every source has an image, almost every one finitely many, and those
covered by both cuts at least three. -/
example (z : ℝ) : ∀ᵐ b : ℝ × ℝ, {p | CutCovers z ([MassiveLens.sie 0 0 (3 / 5) 0 1 0, .sie 1 0 (1 / 2) 1 1 0].map (member z))
    b p}.ncard = 2 → 3 ≤ (planeImages z ([MassiveLens.sie 0 0 (3 / 5) 0 1 0, .sie 1 0 (1 / 2) 1 1 0].map (member z)) b).ncard := by
  have h := C145_apart z [MassiveLens.sie 0 0 (3 / 5) 0 1 0, .sie 1 0 (1 / 2) 1 1 0] (by
      rw [List.forall_mem_cons, List.forall_mem_singleton]
      exact ⟨⟨by norm_num, by norm_num, one_pos, Or.inl rfl⟩, ⟨by norm_num, by norm_num, one_pos, Or.inl rfl⟩⟩)
    (by simp [atInfinity]) (by
      simp only [List.filterMap_cons, List.filterMap_nil, member_singular, singularSie, PlaneMember.pole, List.nodup_cons]
      norm_num) (by simp)
  filter_upwards [h] with b hb h2
  have := hb.2
  omega

/-- Two cluster galaxies with a star in one of them: at least two images of almost every source, although nothing is returned
at the centres of the galaxies. -/
example (z : ℝ) : ∀ᵐ b : ℝ × ℝ, 2 ≤ (planeImages z ([MassiveLens.jaffe ⟨1, 0, 0, 1, 1, 2, 1, 1, 1, 1 / (4 * Real.pi), 0⟩,
    .jaffe ⟨1, 3, 0, 2, 1, 2, 1, 1, 1, 1 / (4 * Real.pi), 0⟩, .point 3 1 1].map (member z)) b).ncard := by
  set L1 : PJaffe := ⟨1, 0, 0, 1, 1, 2, 1, 1, 1, 1 / (4 * Real.pi), 0⟩ with h1
  set L2 : PJaffe := ⟨1, 3, 0, 2, 1, 2, 1, 1, 1, 1 / (4 * Real.pi), 0⟩ with h2
  have hst : planeStars ([MassiveLens.jaffe L1, .jaffe L2, .point 3 1 1].map (member z)) = {((3, 1) : ℝ × ℝ)} := by
    ext p
    simp [mem_planeStars, member, jaffeMember, PlaneMember.starAt, place, eq_comm]
  have h := C145_stars z [MassiveLens.jaffe L1, .jaffe L2, .point 3 1 1] (by
      intro m hm
      simp only [List.mem_cons, List.not_mem_nil, or_false] at hm
      rcases hm with rfl | rfl | rfl
      · exact ⟨⟨by norm_num [h1], by norm_num [h1], by norm_num [h1], by norm_num [h1], by norm_num [h1], by norm_num [h1],
          by norm_num [h1], by norm_num [h1]⟩, by norm_num [h1], rfl⟩
      · exact ⟨⟨by norm_num [h2], by norm_num [h2], by norm_num [h2], by norm_num [h2], by norm_num [h2], by norm_num [h2],
          by norm_num [h2], by norm_num [h2]⟩, by norm_num [h2], rfl⟩
      · exact one_pos)
    (by simp [atInfinity]) (by simp [member, jaffeMember, PlaneMember.cusp])
  filter_upwards [h] with b hb
  have h3 := hb.2
  rw [hst, Finset.card_singleton] at h3
  exact h3

end Caustics

import Verif.Model.LensClass
import Verif.Props.Cosmology
import Verif.Props.LensSimple
import Verif.Props.LensHalo
import Verif.Props.SIE
import Verif.Props.EPL
import Verif.Props.TNFWMass
import Verif.Props.Admissible
import Verif.Lemmas.TNFWTrunc

/-!
C81: passing a parameter to a method by name, against setting it.
C82: what the methods of one lens object say about each other.
-/

open Real

namespace Caustics

namespace LensKind

theorem fill_nil (p : Kw) : fill p [] = p := rfl

/-- A name that is not passed keeps the parameter's value. -/
theorem fill_of_forall {p : Kw} {ov : List (String × ℝ)} {n : String} (h : ∀ o ∈ ov, o.1 ≠ n) :
    fill p ov n = p n := by
  have : ov.lookup n = none := by
    rw [List.lookup_eq_none_iff]
    intro o ho
    have := h o ho
    simpa [beq_iff_eq] using this.symm
  simp [fill, this]

/-- A call whose names are all accepted, without the check. -/
noncomputable def body (e : LensEnv) (k : LensKind) (m : Method) (p a : Kw) (x y : ℝ) :
    Except PyErr Out :=
  match m with
  | .physical => (k.physical e p a x y).map .vec
  | .reduced => (k.reduced e p a x y).map .vec
  | .raytrace => (k.reduced e p a x y).map fun v => .vec (x - v.1, y - v.2)
  | .potential => (k.potential e a x y).map fun v => .num (some v)
  | .convergence => .ok (.num (k.convergence e a x y))
  | .surfaceDensity => .ok (.num (k.surfaceDensity e p a x y))
  | .massEnclosed => (k.massEnclosed e p a x).map fun v => .num (some v)

theorem call_eq {e : LensEnv} {k : LensKind} {m : Method} {p : Kw} {ov : List (String × ℝ)} {x y : ℝ}
    (h : ∀ o ∈ ov, o.1 ∈ k.accepts m) : call e k m p ov x y = body e k m p (fill p ov) x y := by
  have : ov.any (fun o => o.1 ∉ k.accepts m) = false := by
    rw [List.any_eq_false]
    intro o ho
    simpa using h o ho
  unfold call
  rw [this]
  rfl

end LensKind

open LensKind

/-! ### C81 -/

/-- C81 in full: an argument passed by name acts as the parameter set to that value. -/
def C81_statement : Prop :=
  ∀ (e : LensEnv) (k : LensKind) (m : Method) (p : Kw) (ov : List (String × ℝ)) (x y : ℝ),
    (∀ o ∈ ov, o.1 ∈ k.accepts m) → call e k m p ov x y = call e k m (fill p ov) [] x y

/-- The arguments that a method does not hand on to the methods it calls. -/
def staleArgs : LensKind → Method → List String
  | .nfw _, .reduced | .nfw _, .raytrace | .tnfw _ _, .reduced | .tnfw _ _, .raytrace => ["z_l"]
  | .pseudoJaffe _, .physical => ["z_s", "z_l"]
  | .nfw _, .surfaceDensity | .tnfw _ _, .surfaceDensity | .pseudoJaffe _, .surfaceDensity
  | .enclosed _ _, .surfaceDensity => ["z_s", "z_l"]
  | .tnfw _ false, .massEnclosed => ["Rs"]
  | .tnfw _ true, .massEnclosed => ["tau"]
  | _, _ => []

/-- C81 for every lens, method and list of arguments outside `staleArgs`.  Missing: the arguments in
`staleArgs`, where it is false (`C81_fails_*`). -/
theorem C81_partial (e : LensEnv) (k : LensKind) (m : Method) (p : Kw) (ov : List (String × ℝ))
    (x y : ℝ) (h : ∀ o ∈ ov, o.1 ∈ k.accepts m) (hs : ∀ o ∈ ov, o.1 ∉ staleArgs k m) :
    call e k m p ov x y = call e k m (fill p ov) [] x y := by
  rw [call_eq h, call_eq (by simp), fill_nil]
  have key : ∀ n, n ∉ k.accepts m ∨ n ∈ staleArgs k m → fill p ov n = p n := by
    intro n hn
    refine fill_of_forall fun o ho he => ?_
    rcases hn with hn | hn
    · exact hn (he ▸ h o ho)
    · exact hs o ho (he ▸ hn)
  have go : ∀ (k : LensKind), (∀ n, n ∉ k.accepts m ∨ n ∈ staleArgs k m → fill p ov n = p n) →
      body e k m p (fill p ov) x y = body e k m (fill p ov) (fill p ov) x y := by
    intro k key
    cases k with
    | tnfw s b =>
      cases b <;> cases m <;>
      first
      | rfl
      | (simp [body, reduced, physical, ownPhysical, surfaceDensity, convergence, massEnclosed,
          tnfwOf, TNFWLens.M0, TNFWLens.toTNFW, TNFW.physicalDeflection, TNFW.convergence, key, accepts,
          staleArgs]; done)
    | _ =>
      cases m <;>
      first
      | rfl
      | (simp [body, reduced, physical, ownPhysical, surfaceDensity, convergence, massEnclosed,
          nfwOf, pjOf, NFW.physicalDeflection, NFW.rs, key, accepts, staleArgs]; done)
  exact go k key

theorem fill_single (p : Kw) (n : String) (v : ℝ) : fill p [(n, v)] = Function.update p n v := by
  funext m
  by_cases h : m = n
  · subst h; simp [fill]
  · simp [fill, List.lookup, beq_eq_false_iff_ne.2 h, Function.update_of_ne h]

/-- The critical surface density decreases strictly with the source redshift. -/
theorem criticalSurfaceDensity_anti (c : Cosmo) (hc : c.Increasing) (hG : 0 < c.GOverC2) {zl zs z : ℝ}
    (h0 : 0 < zl) (hls : zl < zs) (hz : zs < z) :
    c.criticalSurfaceDensity zl z < c.criticalSurfaceDensity zl zs := by
  obtain ⟨-, hl, -⟩ := C22_positive c hc hG zl zs h0 hls
  have hpi := pi_pos
  have a0 : 0 < c.comoving zl := by have := hc.2 0 zl le_rfl h0; rwa [hc.1] at this
  have a1 := hc.2 zl zs h0.le hls
  have a2 := hc.2 zs z (h0.trans hls).le hz
  have key : ∀ w, zl < w → c.criticalSurfaceDensity zl w
      = 1 / (4 * π * c.GOverC2 * c.angular zl) * (c.comoving w / (c.comoving w - c.comoving zl)) := by
    intro w hw
    have : c.comoving w - c.comoving zl ≠ 0 := (sub_pos.2 (hc.2 zl w h0.le hw)).ne'
    have h1 : 1 + w ≠ 0 := by linarith
    unfold Cosmo.criticalSurfaceDensity Cosmo.angular12 Cosmo.comoving12
    rw [show c.angular w = c.comoving w / (1 + w) from rfl]
    field_simp
  rw [key z (hls.trans hz), key zs hls]
  refine mul_lt_mul_of_pos_left ?_ (by positivity)
  rw [div_lt_div_iff₀ (by linarith) (by linarith)]
  nlinarith

theorem criticalSurfaceDensity_ne (c : Cosmo) (hc : c.Increasing) (hG : 0 < c.GOverC2) {zl zs z : ℝ}
    (h0 : 0 < zl) (hls : zl < zs) (hlz : zl < z) (hz : z ≠ zs) :
    c.criticalSurfaceDensity zl z ≠ c.criticalSurfaceDensity zl zs := by
  rcases lt_or_gt_of_ne hz with h | h
  · exact (criticalSurfaceDensity_anti c hc hG h0 hlz h).ne'
  · exact (criticalSurfaceDensity_anti c hc hG h0 hls h).ne

/-- The lenses whose parameters are physical masses and lengths. -/
def IsHalo : LensKind → Prop
  | .nfw _ | .tnfw _ _ | .pseudoJaffe _ | .enclosed _ _ => True
  | _ => False

theorem divOpt_map (a b c : ℝ) : (divOpt a b).map (· * c) = divOpt (a * c) b := by
  unfold divOpt; split <;> simp [div_mul_eq_mul_div]

/-- The surface density of a halo does not depend on the redshift of the source. -/
theorem surfaceDensity_update (e : LensEnv) {k : LensKind} (hk : IsHalo k) (p : Kw) (z x y : ℝ)
    (h1 : e.cosmo.criticalSurfaceDensity (p "z_l") (p "z_s") ≠ 0)
    (h2 : e.cosmo.criticalSurfaceDensity (p "z_l") z ≠ 0) :
    k.surfaceDensity e (Function.update p "z_s" z) (Function.update p "z_s" z) x y
      = k.surfaceDensity e p p x y := by
  cases k with
  | nfw s =>
    simp only [surfaceDensity, convergence, NFW.convergence, divOpt_map, nfwOf, NFW.rs, nfwConvergenceS,
      ne_eq, Function.update_self, Function.update_of_ne, String.reduceEq, not_false_eq_true]
    congr 1
    field_simp
  | tnfw s b =>
    simp only [surfaceDensity, convergence, TNFW.convergence, tnfwOf, TNFWLens.toTNFW, TNFWLens.M0,
      ne_eq, Function.update_self, Function.update_of_ne, String.reduceEq, not_false_eq_true, Option.map_some]
    congr 1
    rw [div_mul_cancel₀ _ h1, div_mul_cancel₀ _ h2]
    congr!
  | pseudoJaffe s =>
    simp only [surfaceDensity, convergence, PJaffe.convergence, pjOf, pjKappa0,
      ne_eq, Function.update_self, Function.update_of_ne, String.reduceEq, not_false_eq_true, Option.map_some]
    congr 1
    field_simp
  | enclosed s M =>
    simp only [surfaceDensity, convergence, enclosedConvergence,
      ne_eq, Function.update_self, Function.update_of_ne, String.reduceEq, not_false_eq_true, Option.map_some]
    congr 1
    field_simp
  | _ => exact hk.elim

/-- C81 fails for `surface_density(x, y, z_s=z)` of the halo classes.  Setting `z_s` leaves the surface
density as it is; passing it multiplies by the ratio of the critical surface densities, which is
never one. -/
theorem C81_fails_surface_density (e : LensEnv) (hc : e.cosmo.Increasing) (hG : 0 < e.cosmo.GOverC2)
    (k : LensKind) (hk : IsHalo k) (p : Kw) (z x y S : ℝ) (h0 : 0 < p "z_l") (h1 : p "z_l" < p "z_s")
    (h2 : p "z_l" < z) (hz : z ≠ p "z_s") (hS : S ≠ 0)
    (h : call e k .surfaceDensity p [] x y = .ok (.num (some S))) :
    call e k .surfaceDensity (fill p [("z_s", z)]) [] x y = .ok (.num (some S)) ∧
    (∃ S', call e k .surfaceDensity p [("z_s", z)] x y = .ok (.num (some S')) ∧ S' ≠ S ∧
      S' / S = e.cosmo.criticalSurfaceDensity (p "z_l") z
        / e.cosmo.criticalSurfaceDensity (p "z_l") (p "z_s")) := by
  have p1 := (C22_positive e.cosmo hc hG _ _ h0 h1).2.2.2.2.2.2
  have p2 := (C22_positive e.cosmo hc hG _ _ h0 h2).2.2.2.2.2.2
  have hne := criticalSurfaceDensity_ne e.cosmo hc hG h0 h1 h2 hz
  rw [call_eq (by simp), fill_nil] at h
  have hs : k.surfaceDensity e p p x y = some S := by
    simpa [body] using h
  refine ⟨?_, ?_⟩
  · rw [call_eq (by simp), fill_nil, fill_single]
    simp only [body]
    rw [surfaceDensity_update e hk p z x y p1.ne' p2.ne', hs]
  · have ha : ∀ o ∈ [("z_s", z)], o.1 ∈ k.accepts .surfaceDensity := by
      cases k <;> simp_all [accepts, IsHalo]
    rw [call_eq ha, fill_single]
    simp only [body, surfaceDensity] at hs ⊢
    obtain ⟨κ, hκ, hκS⟩ := Option.map_eq_some_iff.1 hs
    rw [hκ]
    have hκ0 : κ ≠ 0 := by rintro rfl; exact hS (by rw [← hκS, zero_mul])
    refine ⟨_, rfl, ?_, ?_⟩
    · simp only [ne_eq, Function.update_self, Function.update_of_ne, String.reduceEq, not_false_eq_true,
        ← hκS]
      exact fun h => hne (mul_left_cancel₀ hκ0 h)
    · simp only [ne_eq, Function.update_self, Function.update_of_ne, String.reduceEq, not_false_eq_true,
        ← hκS]
      field_simp

/-- The reduced deflection of a pseudo-Jaffe lens is inversely proportional to the critical surface
density. -/
theorem pj_deflection_sigmacr (e : LensEnv) (p : Kw) (z x y : ℝ)
    (h1 : e.cosmo.criticalSurfaceDensity (p "z_l") (p "z_s") ≠ 0)
    (h2 : e.cosmo.criticalSurfaceDensity (p "z_l") z ≠ 0) :
    (pjOf e (Function.update p "z_s" z)).deflection x y =
      (e.cosmo.criticalSurfaceDensity (p "z_l") (p "z_s") / e.cosmo.criticalSurfaceDensity (p "z_l") z
          * ((pjOf e p).deflection x y).1,
       e.cosmo.criticalSurfaceDensity (p "z_l") (p "z_s") / e.cosmo.criticalSurfaceDensity (p "z_l") z
          * ((pjOf e p).deflection x y).2) := by
  simp only [PJaffe.deflection, pjOf, pjKappa0,
    ne_eq, Function.update_self, Function.update_of_ne, String.reduceEq, not_false_eq_true]
  generalize e.cosmo.criticalSurfaceDensity (p "z_l") (p "z_s") = a at *
  generalize e.cosmo.criticalSurfaceDensity (p "z_l") z = b at *
  generalize translateRotate x y (p "x0") (p "y0") none = w
  generalize √(w.1 ^ 2 + w.2 ^ 2) + 0 = R
  generalize R / p "Rc" / (1 + √(1 + (R / p "Rc") ^ 2)) - R / (p "Rs" * (1 + √(1 + (R / p "Rs") ^ 2))) = f
  ext
  · simp only; field_simp
  · simp only; field_simp

theorem distance_ratio_sigmacr (c : Cosmo) {zl z : ℝ} (hl : c.angular zl ≠ 0) (hG : c.GOverC2 ≠ 0) :
    c.angular z / c.angular12 zl z = 4 * π * c.GOverC2 * c.angular zl * c.criticalSurfaceDensity zl z := by
  have := pi_pos
  unfold Cosmo.criticalSurfaceDensity
  generalize c.angular12 zl z = d
  rcases eq_or_ne d 0 with rfl | h
  · simp
  · field_simp

/-- C81 fails for `physical_deflection_angle(x, y, z_s=z)` of `PseudoJaffe`: the physical deflection
does not depend on the source, the value returned does. -/
theorem C81_fails_physical (e : LensEnv) (hc : e.cosmo.Increasing) (hG : 0 < e.cosmo.GOverC2)
    (s : ℝ) (p : Kw) (z x y : ℝ) (v : ℝ × ℝ) (h0 : 0 < p "z_l") (h1 : p "z_l" < p "z_s")
    (h2 : p "z_l" < z) (hz : z ≠ p "z_s")
    (h : call e (.pseudoJaffe s) .physical p [] x y = .ok (.vec v)) :
    call e (.pseudoJaffe s) .physical (fill p [("z_s", z)]) [] x y = .ok (.vec v) ∧
    (∃ f, call e (.pseudoJaffe s) .physical p [("z_s", z)] x y = .ok (.vec (f * v.1, f * v.2)) ∧ f ≠ 1 ∧
      f = e.cosmo.criticalSurfaceDensity (p "z_l") z
        / e.cosmo.criticalSurfaceDensity (p "z_l") (p "z_s")) := by
  obtain ⟨-, l1, s1, d1, -, -, p1⟩ := C22_positive e.cosmo hc hG _ _ h0 h1
  obtain ⟨-, l2, s2, d2, -, -, p2⟩ := C22_positive e.cosmo hc hG _ _ h0 h2
  have hne := criticalSurfaceDensity_ne e.cosmo hc hG h0 h1 h2 hz
  rw [call_eq (by simp), fill_nil] at h
  simp only [body, physical, ownPhysical, reduced, bind, Except.bind, pure, Except.pure, Except.map,
    Except.ok.injEq, Out.vec.injEq] at h
  refine ⟨?_, _, ?_, ?_, rfl⟩
  · rw [call_eq (by simp), fill_nil, fill_single, ← h]
    simp only [body, physical, ownPhysical, reduced, bind, Except.bind, pure, Except.pure, Except.map,
      Except.ok.injEq, Out.vec.injEq, physicalFromReduced,
      ne_eq, Function.update_self, Function.update_of_ne, String.reduceEq, not_false_eq_true,
      pj_deflection_sigmacr e p z x y p1.ne' p2.ne', distance_ratio_sigmacr e.cosmo l1.ne' hG.ne']
    ext
    · simp only; field_simp
    · simp only; field_simp
  · rw [call_eq (by simp [accepts]), fill_single, ← h]
    simp only [body, physical, ownPhysical, reduced, bind, Except.bind, pure, Except.pure, Except.map,
      Except.ok.injEq, Out.vec.injEq, physicalFromReduced,
      ne_eq, Function.update_self, Function.update_of_ne, String.reduceEq, not_false_eq_true,
      distance_ratio_sigmacr e.cosmo l1.ne' hG.ne']
    ext
    · simp only; field_simp
    · simp only; field_simp
  · rw [ne_eq, div_eq_one_iff_eq p1.ne']
    exact hne

/-- C81 fails for `reduced_deflection_angle(x, y, z_l=z)` and `raytrace(x, y, z_l=z)` of `TNFW` with
`interpret_m_total_mass=True`: the deflection passed through is that of the lens at its own redshift. -/
theorem C81_fails_reduced (e : LensEnv) (hc : e.cosmo.Increasing) (hG : 0 < e.cosmo.GOverC2)
    (s : ℝ) (p : Kw) (z x y : ℝ) (v : ℝ × ℝ) (h0 : 0 < p "z_l") (h1 : p "z_l" < p "z_s")
    (h2 : 0 < z) (h3 : z < p "z_s")
    (h : call e (.tnfw s true) .reduced (fill p [("z_l", z)]) [] x y = .ok (.vec v)) :
    (∃ f, f = e.cosmo.angular z / e.cosmo.angular (p "z_l") ∧
      call e (.tnfw s true) .reduced p [("z_l", z)] x y = .ok (.vec (f * v.1, f * v.2)) ∧
      call e (.tnfw s true) .raytrace p [("z_l", z)] x y = .ok (.vec (x - f * v.1, y - f * v.2))) ∧
    call e (.tnfw s true) .raytrace (fill p [("z_l", z)]) [] x y = .ok (.vec (x - v.1, y - v.2)) := by
  obtain ⟨-, l1, s1, d1, -, -, p1⟩ := C22_positive e.cosmo hc hG _ _ h0 h1
  obtain ⟨-, l2, s2, d2, -, -, p2⟩ := C22_positive e.cosmo hc hG _ _ h2 h3
  rw [call_eq (by simp), fill_nil, fill_single] at h
  simp only [body, reduced, Except.map, Except.ok.injEq, Out.vec.injEq] at h
  have ha := arcsecToRad_pos
  have key : reducedFromPhysical ((tnfwOf e s true p).toTNFW.physicalDeflection x y)
      (e.cosmo.angular (p "z_s")) (e.cosmo.angular12 z (p "z_s"))
      = (e.cosmo.angular z / e.cosmo.angular (p "z_l") * v.1,
         e.cosmo.angular z / e.cosmo.angular (p "z_l") * v.2) := by
    rw [← h]
    simp only [reducedFromPhysical, TNFW.physicalDeflection, tnfwOf, TNFWLens.toTNFW, TNFWLens.M0, if_true,
      ne_eq, Function.update_self, Function.update_of_ne, String.reduceEq, not_false_eq_true]
    ext
    · simp only; field_simp
    · simp only; field_simp
  refine ⟨⟨_, rfl, ?_, ?_⟩, ?_⟩
  · rw [call_eq (by simp [accepts]), fill_single]
    simp only [body, reduced, Except.map, ne_eq, Function.update_self, Function.update_of_ne,
      String.reduceEq, not_false_eq_true, key]
  · rw [call_eq (by simp [accepts]), fill_single]
    simp only [body, reduced, Except.map, ne_eq, Function.update_self, Function.update_of_ne,
      String.reduceEq, not_false_eq_true, key]
  · rw [call_eq (by simp), fill_nil, fill_single]
    simp only [body, reduced, Except.map, h]

/-- C81 fails for `mass_enclosed_2d(r, tau=t)` of `TNFW` with `interpret_m_total_mass=True`: the mass
at large radius should be the parameter `mass` whatever the truncation, and is not. -/
theorem C81_fails_mass_enclosed (e : LensEnv) (s : ℝ) (p : Kw) (t : ℝ) (hm : 0 < p "mass")
    (hR : 0 < p "Rs") (htau : 0 < p "tau") (ht : 0 < t) (hne : t ≠ p "tau") :
    ∃ f g : ℝ → ℝ,
      (∀ r, call e (.tnfw s true) .massEnclosed (fill p [("tau", t)]) [] r 0 = .ok (.num (some (f r)))) ∧
      (∀ r, call e (.tnfw s true) .massEnclosed p [("tau", t)] r 0 = .ok (.num (some (g r)))) ∧
      Filter.Tendsto f Filter.atTop (nhds (p "mass")) ∧
      ∃ m, m ≠ p "mass" ∧ Filter.Tendsto g Filter.atTop (nhds m) := by
  refine ⟨fun r => tnfwMassEnclosed r (p "Rs") t (tnfwM0Tot (p "mass") t),
    fun r => tnfwMassEnclosed r (p "Rs") t (tnfwM0Tot (p "mass") (p "tau")), fun r => ?_, fun r => ?_, ?_, ?_⟩
  · rw [call_eq (by simp), fill_nil, fill_single]
    simp [body, massEnclosed, tnfwOf, TNFWLens.M0, Except.map]
  · rw [call_eq (by simp [accepts]), fill_single]
    simp [body, massEnclosed, tnfwOf, TNFWLens.M0, Except.map]
  · have := tnfwTot_pos ht
    have h := tendsto_tnfwMassEnclosed (M0 := tnfwM0Tot (p "mass") t) hR ht
    rwa [show tnfwM0Tot (p "mass") t * tnfwTot t = p "mass" by
      rw [tnfwM0Tot_eq, div_mul_cancel₀ _ this.ne']] at h
  · refine ⟨_, ?_, tendsto_tnfwMassEnclosed hR ht⟩
    have h1 := tnfwTot_pos ht
    have h2 := tnfwTot_pos htau
    rw [tnfwM0Tot_eq, div_mul_eq_mul_div, ne_eq, div_eq_iff h2.ne']
    intro h
    have := mul_left_cancel₀ hm.ne' h
    rcases lt_or_gt_of_ne hne with h | h
    · exact (tnfwTot_mono ht h).ne this
    · exact (tnfwTot_mono htau h).ne' this

/-- C81 fails for `mass_enclosed_2d(r, Rs=R)` of `TNFW` with `interpret_m_total_mass=False`: the value
is off by the ratio of the normalisations at the two scale radii, which is never one. -/
theorem C81_fails_mass_enclosed_scale (e : LensEnv) (s : ℝ) (p : Kw) (R : ℝ) (hm : 0 < p "mass")
    (hRs : 0 < p "Rs") (hR : 0 < R) (hne : R ≠ p "Rs") (hr : 0 < e.rhoc (p "z_l"))
    (hd : 0 < e.cosmo.angular (p "z_l")) :
    ∃ f ≠ (1 : ℝ), ∀ r, ∃ m,
      call e (.tnfw s false) .massEnclosed (fill p [("Rs", R)]) [] r 0 = .ok (.num (some m)) ∧
      call e (.tnfw s false) .massEnclosed p [("Rs", R)] r 0 = .ok (.num (some (f * m))) := by
  have ha := arcsecToRad_pos
  have hpi := pi_pos
  set C := (3 * p "mass" / (4 * π * tnfwDelta * e.rhoc (p "z_l"))) ^ ((1 : ℝ) / 3) with hC
  have hCp : 0 < C := rpow_pos_of_pos (by unfold tnfwDelta; positivity) _
  set d := e.cosmo.angular (p "z_l") with hdd
  have hM : ∀ w, 0 < w → (let c := tnfwConcentration (p "mass") w (e.rhoc (p "z_l")) d tnfwDelta
      tnfwM0Scale w c (e.rhoc (p "z_l")) d tnfwDelta)
      = 4 * π * (tnfwDelta / 3) * e.rhoc (p "z_l") * C ^ 3
        / (log (1 + C / (w * d * arcsecToRad)) - C / (w * d * arcsecToRad) / (1 + C / (w * d * arcsecToRad))) := by
    intro w hw
    simp only [tnfwConcentration, tnfwM0Scale, tnfwScaleDensity, ← hC]
    have hD : 0 < w * d * arcsecToRad := by positivity
    generalize w * d * arcsecToRad = D at *
    rw [div_pow]
    generalize log (1 + C / D) - C / D / (1 + C / D) = n
    rcases eq_or_ne n 0 with rfl | hn
    · simp
    · field_simp
  have hlt : ∀ u w, 0 < u → u < w →
      log (1 + C / (w * d * arcsecToRad)) - C / (w * d * arcsecToRad) / (1 + C / (w * d * arcsecToRad))
      < log (1 + C / (u * d * arcsecToRad)) - C / (u * d * arcsecToRad) / (1 + C / (u * d * arcsecToRad)) := by
    intro u w hu huw
    have hw := hu.trans huw
    have hcc : C / (w * d * arcsecToRad) < C / (u * d * arcsecToRad) := by gcongr
    have hc0 : 0 < C / (w * d * arcsecToRad) := by positivity
    generalize C / (w * d * arcsecToRad) = a at *
    generalize C / (u * d * arcsecToRad) = b at *
    have hb : 0 < b := hc0.trans hcc
    have e1 : ∀ c : ℝ, 0 < c → c / (1 + c) = 1 - (1 + c)⁻¹ := fun c hc => by field_simp; ring
    rw [e1 a hc0, e1 b hb]
    have hl : log (1 + a) - log (1 + b) < (1 + a) / (1 + b) - 1 := by
      rw [← log_div (by positivity) (by positivity)]
      refine log_lt_sub_one_of_pos (by positivity) ?_
      rw [ne_eq, div_eq_one_iff_eq (by positivity)]
      intro h; linarith
    have h2 : (1 + a) / (1 + b) - 1 + (1 + a)⁻¹ - (1 + b)⁻¹ ≤ 0 → 
        log (1 + a) - (1 - (1 + a)⁻¹) < log (1 + b) - (1 - (1 + b)⁻¹) := fun h => by linarith
    apply h2
    rw [show (1 + a) / (1 + b) - 1 + (1 + a)⁻¹ - (1 + b)⁻¹ = -((b - a) * a / ((1 + a) * (1 + b))) by
      field_simp; ring]
    have : 0 ≤ (b - a) * a / ((1 + a) * (1 + b)) := by
      have : 0 < b - a := by linarith
      positivity
    linarith
  have hN : ∀ w, 0 < w → 0 < log (1 + C / (w * d * arcsecToRad))
      - C / (w * d * arcsecToRad) / (1 + C / (w * d * arcsecToRad)) :=
    fun w hw => nfw_m_pos (by positivity)
  have h1 := hN R hR
  have h2 := hN _ hRs
  have h3 := hM R hR
  have h4 := hM _ hRs
  simp only at h3 h4
  have hD : (0:ℝ) < tnfwDelta := by norm_num [tnfwDelta]
  refine ⟨(log (1 + C / (R * d * arcsecToRad)) - C / (R * d * arcsecToRad) / (1 + C / (R * d * arcsecToRad)))
    / (log (1 + C / (p "Rs" * d * arcsecToRad)) - C / (p "Rs" * d * arcsecToRad)
      / (1 + C / (p "Rs" * d * arcsecToRad))), ?_, fun r =>
      ⟨tnfwMassEnclosed r R (p "tau") (tnfwM0Scale R (tnfwConcentration (p "mass") R (e.rhoc (p "z_l")) d
        tnfwDelta) (e.rhoc (p "z_l")) d tnfwDelta), ?_, ?_⟩⟩
  · rw [ne_eq, div_eq_one_iff_eq h2.ne']
    rcases lt_or_gt_of_ne hne with h | h
    · exact (hlt _ _ hR h).ne'
    · exact (hlt _ _ hRs h).ne
  · rw [call_eq (by simp), fill_nil, fill_single]
    simp [body, massEnclosed, tnfwOf, TNFWLens.M0, Except.map, hdd]
  · rw [call_eq (by simp [accepts]), fill_single]
    simp only [body, massEnclosed, tnfwOf, TNFWLens.M0, Except.map, ← hdd, Bool.false_eq_true, if_false,
      ne_eq, Function.update_self, Function.update_of_ne, String.reduceEq, not_false_eq_true]
    rw [h3, h4]
    simp only [tnfwMassEnclosed]
    generalize log (1 + C / (R * d * arcsecToRad))
      - C / (R * d * arcsecToRad) / (1 + C / (R * d * arcsecToRad)) = n1 at *
    generalize log (1 + C / (p "Rs" * d * arcsecToRad))
      - C / (p "Rs" * d * arcsecToRad) / (1 + C / (p "Rs" * d * arcsecToRad)) = n2 at *
    congr 3
    field_simp

/-- The exact condition under which C81 holds for `reduced_deflection_angle(x, y, z_l=z)` of `NFW` and
`TNFW`: the physical deflection is the same at both lens redshifts. -/
theorem C81_reduced_exact_partial (e : LensEnv) (hc : e.cosmo.Increasing) (hG : 0 < e.cosmo.GOverC2)
    (k : LensKind) (hk : (∃ s, k = .nfw s) ∨ ∃ s b, k = .tnfw s b) (p : Kw) (z x y : ℝ)
    (h2 : 0 < z) (h3 : z < p "z_s") :
    call e k .reduced p [("z_l", z)] x y = call e k .reduced (fill p [("z_l", z)]) [] x y ↔
      call e k .physical p [] x y = call e k .physical p [("z_l", z)] x y := by
  obtain ⟨-, -, s2, d2, -⟩ := C22_positive e.cosmo hc hG _ _ h2 h3
  have key : ∀ v w : ℝ × ℝ, reducedFromPhysical v (e.cosmo.angular (p "z_s")) (e.cosmo.angular12 z (p "z_s"))
      = reducedFromPhysical w (e.cosmo.angular (p "z_s")) (e.cosmo.angular12 z (p "z_s")) ↔ v = w := by
    intro v w
    have hr : e.cosmo.angular12 z (p "z_s") / e.cosmo.angular (p "z_s") ≠ 0 := by positivity
    simp only [reducedFromPhysical, Prod.ext_iff, mul_right_inj' hr]
  have ha : ∀ o ∈ [("z_l", z)], o.1 ∈ k.accepts .reduced := by
    rcases hk with ⟨s, rfl⟩ | ⟨s, b, rfl⟩ <;> simp [accepts]
  have hb : ∀ o ∈ [("z_l", z)], o.1 ∈ k.accepts .physical := by
    rcases hk with ⟨s, rfl⟩ | ⟨s, b, rfl⟩ <;> simp [accepts]
  rw [call_eq ha, call_eq hb, call_eq (by simp), call_eq (by simp), fill_nil, fill_single, fill_nil]
  rcases hk with ⟨s, rfl⟩ | ⟨s, b, rfl⟩ <;>
  · simp only [body, reduced, physical, ownPhysical, Except.map, Except.ok.injEq, Out.vec.injEq, ne_eq,
      Function.update_self, Function.update_of_ne, String.reduceEq, not_false_eq_true]
    rw [key]

/-- The exact condition under which C81 holds for `surface_density` of any lens and any arguments: the
convergence is the same before and after setting them. -/
theorem C81_surface_density_exact_partial (e : LensEnv) (k : LensKind) (p : Kw) (ov : List (String × ℝ))
    (x y : ℝ) (h : ∀ o ∈ ov, o.1 ∈ k.accepts .surfaceDensity)
    (hS : e.cosmo.criticalSurfaceDensity (fill p ov "z_l") (fill p ov "z_s") ≠ 0) :
    call e k .surfaceDensity p ov x y = call e k .surfaceDensity (fill p ov) [] x y ↔
      call e k .convergence p [] x y = call e k .convergence (fill p ov) [] x y := by
  rw [call_eq h, call_eq (by simp), call_eq (by simp), call_eq (by simp), fill_nil, fill_nil]
  simp only [body, surfaceDensity, Except.ok.injEq, Out.num.injEq]
  exact (Option.map_injective (mul_left_injective₀ hS)).eq_iff

/-- A cosmology whose angular diameter distance turns over, as real ones do. -/
noncomputable def turnoverEnv : LensEnv where
  cosmo := ⟨fun z => min (2 * z) (z + 1), fun z => min (2 * z) (z + 1), 1⟩
  rhoc := fun z => (1 + z) ^ 3

theorem nfwH_lt : nfwH 10 < nfwH 20 := by
  rw [nfwH_eq (by norm_num), nfwH_eq (by norm_num)]
  have h1 : 0 ≤ ringF 20 := by
    norm_num [ringF]
    exact div_nonneg (arccos_nonneg _) (sqrt_nonneg _)
  have h2 := ringF_upper (x := 10) (by norm_num) (by norm_num)
  have h3 : log (20 / 2) = log 2 + log (10 / 2) := by
    rw [← log_mul (by norm_num) (by norm_num)]; norm_num
  have := log_two_gt_d9
  norm_num at h2 this h3 ⊢
  linarith

/-- C81 fails for `reduced_deflection_angle(x, y, z_l=3)` of an NFW halo at redshift 1. -/
theorem C81_fails_reduced_nfw : ∃ (e : LensEnv) (p : Kw) (x y : ℝ), e.cosmo.Increasing ∧
    0 < e.cosmo.GOverC2 ∧ 3 < p "z_s" ∧ p "z_l" = 1 ∧ 0 < p "mass" ∧ 0 < p "c" ∧
    call e (.nfw 0) .reduced p [("z_l", 3)] x y ≠ call e (.nfw 0) .reduced (fill p [("z_l", 3)]) [] x y := by
  have ha := arcsecToRad_pos
  have hpi := pi_pos
  set p : Kw := fun n => if n = "z_l" then 1 else if n = "z_s" then 4 else if n = "mass" then 800 * π / 3
    else if n = "c" then 5 / arcsecToRad else 0 with hp
  have hinc : turnoverEnv.cosmo.Increasing := by
    refine ⟨by norm_num [turnoverEnv], fun z z' _ h => ?_⟩
    exact min_lt_min (by linarith) (by linarith)
  refine ⟨turnoverEnv, p, 1, 0, hinc, one_pos, by simp [hp]; norm_num, by simp [hp], by simp [hp]; positivity,
    by simp [hp]; positivity, ?_⟩
  rw [ne_eq, C81_reduced_exact_partial turnoverEnv hinc one_pos _ (Or.inl ⟨0, rfl⟩) p 3 1 0 (by norm_num)
    (by simp [hp]; norm_num), call_eq (by simp), fill_nil, call_eq (by simp [accepts]), fill_single]
  simp only [body, physical, ownPhysical, Except.map, Except.ok.injEq, Out.vec.injEq, Prod.ext_iff, not_and_or]
  left
  have rs : ∀ z : ℝ, 0 < 1 + z → (3 * (800 * π / 3) / (4 * π * 200 * (1 + z) ^ 3)) ^ ((1 : ℝ) / 3) = 1 / (1 + z) := by
    intro z hz
    rw [show 3 * (800 * π / 3) / (4 * π * 200 * (1 + z) ^ 3) = (1 / (1 + z)) ^ (3 : ℕ) by
      field_simp; norm_num, ← rpow_natCast, ← rpow_mul (by positivity)]
    norm_num
  simp only [NFW.physicalDeflection, nfwOf, NFW.rs, nfwScaleRadius, nfwScaleDensity, translateRotate, turnoverEnv, ne_eq,
    Function.update_self, Function.update_of_ne, String.reduceEq, not_false_eq_true, hp, if_true, if_false, Cosmo.angular]
  rw [rs 1 (by norm_num), rs 3 (by norm_num)]
  have hm := nfw_m_pos (c := 5 / arcsecToRad) (by positivity)
  generalize log (1 + 5 / arcsecToRad) - 5 / arcsecToRad / (1 + 5 / arcsecToRad) = m at *
  norm_num [radToArcsec_eq]
  have e1 : arcsecToRad / (1 / 2 / (5 / arcsecToRad)) = 10 := by field_simp; norm_num
  have e2 : arcsecToRad / (1 / 4 / (5 / arcsecToRad)) = 20 := by field_simp; norm_num
  rw [e1, e2]
  intro h
  refine nfwH_lt.ne ?_
  field_simp at h
  linarith

/-- A cosmology with distances `z` and unit constants. -/
noncomputable def exampleEnv : LensEnv where
  cosmo := ⟨fun z => z, fun z => z, 1⟩
  rhoc := fun _ => 1

/-- Parameters: lens at redshift 1, source at redshift 2, everything else 1 but `Rs = 2`. -/
def exampleStore : Kw := fun n => if n = "z_s" ∨ n = "Rs" then 2 else 1

theorem exampleStore_values : exampleStore "z_l" = 1 ∧ exampleStore "z_s" = 2 ∧ exampleStore "x0" = 1 ∧
    exampleStore "y0" = 1 ∧ exampleStore "mass" = 1 ∧ exampleStore "Rc" = 1 ∧ exampleStore "Rs" = 2 ∧
    exampleStore "c" = 1 ∧ exampleStore "tau" = 1 ∧ exampleStore "Rein" = 1 := by
  simp [exampleStore]

theorem exampleEnv_increasing : exampleEnv.cosmo.Increasing := ⟨rfl, fun _ _ _ h => h⟩

/-- C81 is false. -/
theorem C81_fails : ¬ C81_statement := by
  intro h
  have hcall : ∃ S, S ≠ 0 ∧
      call exampleEnv (.pseudoJaffe 0) .surfaceDensity exampleStore [] 1 1 = .ok (.num (some S)) := by
    rw [call_eq (by simp), fill_nil]
    refine ⟨_, ?_, rfl⟩
    have ha := arcsecToRad_pos
    have hpi := pi_pos
    norm_num [PJaffe.convergence, pjOf, pjKappa0, translateRotate, exampleEnv, exampleStore_values,
      Cosmo.criticalSurfaceDensity, Cosmo.angular, Cosmo.angular12, Cosmo.comoving12, ha.ne']
    rw [show (4 : ℝ) = 2 ^ 2 by norm_num, sqrt_sq (by norm_num)]
    norm_num
  obtain ⟨S, hS, hc⟩ := hcall
  obtain ⟨h1, S', h2, h3, -⟩ := C81_fails_surface_density exampleEnv exampleEnv_increasing one_pos
    (.pseudoJaffe 0) trivial exampleStore 3 1 1 S (by norm_num [exampleStore_values]) (by norm_num [exampleStore_values])
    (by norm_num [exampleStore_values]) (by norm_num [exampleStore_values]) hS hc
  have := h exampleEnv (.pseudoJaffe 0) .surfaceDensity exampleStore [("z_s", 3)] 1 1 (by simp [accepts])
  rw [h1, h2] at this
  simp only [Except.ok.injEq, Out.num.injEq, Option.some.injEq] at this
  exact h3 this

/-! ### C82 -/

/-- Where the methods of a lens are expected to agree: physical parameters, off the centre, no
softening (any softening for `PseudoJaffe`, which ignores it, and for `SIE`), outside the window
around the scale radius in which NFW and TNFW replace their profile functions.  `EPL` only when
circular (for other axis ratios the sum over `n_iter` terms leaves a remainder, `C24_epl_partial`). -/
def Regular (e : LensEnv) (p : Kw) (x y : ℝ) : LensKind → Prop
  | .sis s | .point s => s = 0 ∧ (x, y) ≠ (p "x0", p "y0")
  | .sheet | .shear => True
  | .sie s => 0 < p "q" ∧ p "q" < 1 ∧ (s = 0 ∨ 1e-6 ≤ s) ∧ (s ≠ 0 ∨ (x, y) ≠ (p "x0", p "y0"))
  | .epl s n cs => s = 0 ∧ p "q" = 1 ∧ 0 < p "Rein" ∧ 0 < p "t" ∧ p "t" < 2 ∧ 1 ≤ n ∧ ChunkOk n cs ∧
      (x, y) ≠ (p "x0", p "y0")
  | .nfw s => s = 0 ∧ 0 < p "mass" ∧ 0 < p "c" ∧ (x, y) ≠ (p "x0", p "y0") ∧
      1e-6 < |(nfwOf e s p).radius x y - 1|
  | .tnfw s _ => s = 0 ∧ 0 < p "Rs" ∧ 0 < p "tau" ∧ (x, y) ≠ (p "x0", p "y0") ∧
      1e-2 < |√((x - p "x0") ^ 2 + (y - p "y0") ^ 2) / p "Rs" - 1|
  | .pseudoJaffe _ => 0 < p "Rc" ∧ 0 < p "Rs" ∧ p "Rc" ≠ p "Rs" ∧ (x, y) ≠ (p "x0", p "y0")
  | .enclosed _ _ => False

/-- What the calls of one lens object return, and how the values are related: the deflection is the
gradient of the potential, the convergence half its divergence. -/
theorem lens_object_core (e : LensEnv) (hc : e.cosmo.Increasing) (hG : 0 < e.cosmo.GOverC2)
    (hr : ∀ z, 0 < e.rhoc z) (k : LensKind) (p : Kw) (x y : ℝ) (h0 : 0 < p "z_l")
    (h1 : p "z_l" < p "z_s") (hreg : Regular e p x y k) :
    ∃ (α : ℝ → ℝ → ℝ × ℝ) (ψ : ℝ → ℝ → ℝ) (κ : ℝ),
      (∀ x y, k.reduced e p p x y = .ok (α x y)) ∧ (∀ x y, k.potential e p x y = .ok (ψ x y)) ∧
      k.convergence e p x y = some κ ∧ HasGrad ψ (α x y).1 (α x y).2 x y ∧ HasKappa α κ x y := by
  obtain ⟨-, l1, s1, d1, -, -, -⟩ := C22_positive e.cosmo hc hG _ _ h0 h1
  cases k with
  | sis s =>
    obtain ⟨rfl, h⟩ := hreg
    exact ⟨_, _, _, fun _ _ => rfl, fun _ _ => rfl, rfl, C23_sis _ _ _ _ _ h, C24_sis _ _ _ _ _ h⟩
  | point s =>
    obtain ⟨rfl, h⟩ := hreg
    obtain ⟨κ, h2, h3⟩ := C24_point _ _ (p "Rein") _ _ h
    exact ⟨_, _, κ, fun _ _ => rfl, fun _ _ => rfl, h2, C23_point _ _ _ _ _ h, h3⟩
  | sheet =>
    exact ⟨_, _, _, fun _ _ => rfl, fun _ _ => rfl, rfl, C23_mass_sheet _ _ _ _ _, C24_mass_sheet _ _ _ _ _⟩
  | shear =>
    exact ⟨_, _, _, fun _ _ => rfl, fun _ _ => rfl, rfl, C23_external_shear _ _ _ _ _ _,
      C24_external_shear _ _ _ _ _ _⟩
  | sie s =>
    obtain ⟨hq, hq1, hs, hxy⟩ := hreg
    have hs0 : 0 ≤ s := by
      rcases hs with rfl | hs
      · exact le_rfl
      · exact le_trans (by norm_num) hs
    exact ⟨_, _, _, fun _ _ => rfl, fun _ _ => rfl, rfl, C23_sie_partial _ _ _ _ _ _ hq hq1 hs _ _ hxy,
      C24_sie _ _ _ _ _ _ hq hq1 hs0 _ _ hxy⟩
  | epl s n cs =>
    obtain ⟨rfl, hq, hR, ht, ht2, hn, hcs, hxy⟩ := hreg
    obtain ⟨α, ψ, hα, hψ, h⟩ := C23_epl_circular (p "x0") (p "y0") (p "phi") (p "Rein") (p "t") n cs hR ht ht2
      hn hcs
    refine ⟨α, ψ, _, fun x y => ?_, fun x y => ?_, rfl, (h x y hxy).1, ?_⟩
    · rw [← hα]; simp only [reduced, hq]
    · rw [← hψ]; simp only [potential, hq]
    · rw [hq]; exact (h x y hxy).2
  | nfw s =>
    obtain ⟨hs, hm, hcc, hxy, hw⟩ := hreg
    have hL : (nfwOf e s p).Ok := ⟨hG, hm, hcc, by norm_num [nfwOf], hr _, l1, s1, d1, rfl⟩
    obtain ⟨κ, h2, h3⟩ := C24_nfw _ hL hs x y hxy hw
    exact ⟨(nfwOf e s p).deflection, _, κ, fun _ _ => rfl, fun _ _ => rfl, h2, C23_nfw _ hL hs x y hxy hw, h3⟩
  | tnfw s b =>
    obtain ⟨hs, hR, ht, hxy, hw⟩ := hreg
    have hL : (tnfwOf e s b p).toTNFW.Ok := ⟨hG, hR, ht, l1, s1, d1, rfl⟩
    exact ⟨(tnfwOf e s b p).toTNFW.deflection, _, _, fun _ _ => rfl, fun _ _ => rfl, rfl,
      C23_tnfw _ hL hs x y hxy hw, C24_tnfw _ hL hs x y hxy hw⟩
  | pseudoJaffe s =>
    obtain ⟨hRc, hRs, hne, hxy⟩ := hreg
    have hL : (pjOf e p).Ok := ⟨hG, hRc, hRs, hne, l1, s1, d1, rfl⟩
    exact ⟨(pjOf e p).deflection, _, _, fun _ _ => rfl, fun _ _ => rfl, rfl,
      C23_pseudo_jaffe _ hL rfl x y hxy, C24_pseudo_jaffe _ hL rfl x y hxy⟩
  | enclosed s M => exact hreg.elim

/-- C82: the methods of one lens object agree.  For every lens class, cosmology with increasing
distances and lens in front of the source, at a regular position: `reduced_deflection_angle` is the
gradient of `potential`, `convergence` half its divergence, `raytrace` subtracts it,
`physical_deflection_angle` is it divided by `d_ls / d_s`, and `surface_density` is `convergence` times
the critical surface density of the same cosmology. -/
theorem C82_lens_object (e : LensEnv) (hc : e.cosmo.Increasing) (hG : 0 < e.cosmo.GOverC2)
    (hr : ∀ z, 0 < e.rhoc z) (k : LensKind) (p : Kw) (x y : ℝ) (h0 : 0 < p "z_l")
    (h1 : p "z_l" < p "z_s") (hreg : Regular e p x y k) :
    ∃ (α β : ℝ → ℝ → ℝ × ℝ) (ψ : ℝ → ℝ → ℝ) (κ : ℝ),
      (∀ x y, call e k .reduced p [] x y = .ok (.vec (α x y))) ∧
      (∀ x y, call e k .physical p [] x y = .ok (.vec (β x y))) ∧
      (∀ x y, call e k .raytrace p [] x y = .ok (.vec (x - (α x y).1, y - (α x y).2))) ∧
      (∀ x y, call e k .potential p [] x y = .ok (.num (some (ψ x y)))) ∧
      call e k .convergence p [] x y = .ok (.num (some κ)) ∧
      call e k .surfaceDensity p [] x y
        = .ok (.num (some (κ * e.cosmo.criticalSurfaceDensity (p "z_l") (p "z_s")))) ∧
      HasGrad ψ (α x y).1 (α x y).2 x y ∧ HasKappa α κ x y ∧
      ∀ x y, e.cosmo.angular (p "z_s") * (α x y).1 = e.cosmo.angular12 (p "z_l") (p "z_s") * (β x y).1 ∧
        e.cosmo.angular (p "z_s") * (α x y).2 = e.cosmo.angular12 (p "z_l") (p "z_s") * (β x y).2 := by
  obtain ⟨-, l1, s1, d1, -, -, -⟩ := C22_positive e.cosmo hc hG _ _ h0 h1
  obtain ⟨α, ψ, κ, hα, hψ, hκ, hg, hk⟩ := lens_object_core e hc hG hr k p x y h0 h1 hreg
  have hβ : ∃ β : ℝ → ℝ → ℝ × ℝ, (∀ x y, k.physical e p p x y = .ok (β x y)) ∧
      ∀ x y, e.cosmo.angular (p "z_s") * (α x y).1 = e.cosmo.angular12 (p "z_l") (p "z_s") * (β x y).1 ∧
        e.cosmo.angular (p "z_s") * (α x y).2 = e.cosmo.angular12 (p "z_l") (p "z_s") * (β x y).2 := by
    cases ho : k.ownPhysical e p with
    | none =>
      refine ⟨fun x y => physicalFromReduced (α x y) (e.cosmo.angular (p "z_s"))
        (e.cosmo.angular12 (p "z_l") (p "z_s")), fun x y => ?_, fun x y => ?_⟩
      · simp only [physical, ho, hα]; rfl
      · simp only [physicalFromReduced]
        constructor <;> field_simp
    | some f =>
      refine ⟨f, fun x y => by simp only [physical, ho], fun x y => ?_⟩
      have hf : k.reduced e p p x y = .ok (reducedFromPhysical (f x y) (e.cosmo.angular (p "z_s"))
          (e.cosmo.angular12 (p "z_l") (p "z_s"))) := by
        cases k <;> simp only [ownPhysical, Option.some.injEq, reduceCtorEq] at ho <;> subst ho <;> rfl
      rw [hα, Except.ok.injEq] at hf
      rw [hf]
      simp only [reducedFromPhysical]
      constructor <;> field_simp
  obtain ⟨β, hβ, hαβ⟩ := hβ
  refine ⟨α, β, ψ, κ, fun x y => ?_, fun x y => ?_, fun x y => ?_, fun x y => ?_, ?_, ?_, hg, hk, hαβ⟩
  · rw [call_eq (by simp), fill_nil]; simp only [body, hα]; rfl
  · rw [call_eq (by simp), fill_nil]; simp only [body, hβ]; rfl
  · rw [call_eq (by simp), fill_nil]; simp only [body, hα]; rfl
  · rw [call_eq (by simp), fill_nil]; simp only [body, hψ]; rfl
  · rw [call_eq (by simp), fill_nil]; simp only [body, hκ]
  · rw [call_eq (by simp), fill_nil]; simp only [body, surfaceDensity, hκ]; rfl

/-- Passing the Einstein radius of an isothermal sphere by name: the value 5 is used, not the
parameter's 1; and an argument the method does not have is an error. -/
example : call exampleEnv (.sis 0) .reduced exampleStore [("Rein", 5)] 4 5 = .ok (.vec (3, 4)) ∧
    call exampleEnv (.sis 0) .reduced exampleStore [("mass", 5)] 4 5 = .error .typeError := by
  constructor
  · rw [call_eq (by simp [accepts]), fill_single]
    simp only [body, reduced, sisDeflection, translateRotate, ne_eq, Function.update_self,
      Function.update_of_ne, String.reduceEq, not_false_eq_true, exampleStore_values, Except.map]
    rw [show ((4 : ℝ) - 1) ^ 2 + (5 - 1) ^ 2 = 5 ^ 2 by norm_num, sqrt_sq (by norm_num)]
    norm_num
  · simp [call, accepts]

/-- Passing several arguments at once agrees with setting them. -/
example (s : ℝ) (p : Kw) (x y : ℝ) :
    call exampleEnv (.nfw s) .convergence p [("mass", 3), ("z_l", 1), ("c", 4)] x y
      = call exampleEnv (.nfw s) .convergence (fill p [("mass", 3), ("z_l", 1), ("c", 4)]) [] x y :=
  C81_partial _ _ _ _ _ _ _ (by simp [accepts]) (by simp [staleArgs])

/-- The surface density of a pseudo-Jaffe lens when `z_s = 3` is passed: `3/4` of the right one. -/
example : exampleEnv.cosmo.criticalSurfaceDensity 1 3 / exampleEnv.cosmo.criticalSurfaceDensity 1 2
    = 3 / 4 := by
  have := pi_pos
  simp only [exampleEnv, Cosmo.criticalSurfaceDensity, Cosmo.angular, Cosmo.angular12, Cosmo.comoving12]
  field_simp
  norm_num

/-- A regular position of a softened pseudo-Jaffe lens, and of a truncated NFW halo. -/
example : Regular exampleEnv exampleStore 2 3 (.pseudoJaffe 5) ∧
    Regular exampleEnv exampleStore 4 5 (.tnfw 0 false) := by
  refine ⟨?_, ?_⟩
  · simp only [Regular, exampleStore_values]
    norm_num
  · simp only [Regular, exampleStore_values]
    rw [show ((4 : ℝ) - 1) ^ 2 + (5 - 1) ^ 2 = 5 ^ 2 by norm_num, sqrt_sq (by norm_num)]
    norm_num

end Caustics

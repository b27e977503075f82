import Verif.Model.MixedCosmo
import Verif.Lemmas.Multiplane
import Mathlib.Tactic.FieldSimp
import Mathlib.Tactic.Ring
import Mathlib.Tactic.Positivity
import Mathlib.Tactic.NormNum
import Mathlib.Tactic.Linarith

/-!
C140: a composite lens and its members may have been given different cosmologies.

The full claim, that the composite then acts as if all its members had been constructed with its own cosmology, fails.
-/

namespace Caustics

open Real

/-- A flat cosmology as a user may write one: distances start at 0 and grow with the redshift. -/
structure FlatSane (e : LensEnv) : Prop where
  flat : e.cosmo.transverse = e.cosmo.comoving
  zero : e.cosmo.comoving 0 = 0
  mono : StrictMonoOn e.cosmo.comoving (Set.Ici 0)

/-- The same scene with every member constructed with the cosmology of the composite. -/
def CPlane.uniform (c : CPlane) : CPlane := { c with lenses := c.lenses.map fun l => { l with env := c.env } }

@[inherit_doc CPlane.uniform]
def CMulti.uniform (c : CMulti) : CMulti := { c with lenses := c.lenses.map fun l => { l with env := c.env } }

/-- C140 as a user would have it. -/
def C140_statement : Prop :=
  (∀ (c : CPlane) (x y : ℝ), FlatSane c.env → 0 < c.zl → c.zl < c.zs →
    (∀ l ∈ c.lenses, FlatSane l.env ∧ l.env.cosmo.GOverC2 = c.env.cosmo.GOverC2) → c.reduced x y = c.uniform.reduced x y) ∧
  (∀ (c : CMulti) (x y : ℝ) (b : ℝ × ℝ), FlatSane c.env → 0 < c.zs → c.radToArcsec ≠ 0 →
    (∀ l ∈ c.lenses, FlatSane l.env ∧ l.env.cosmo.GOverC2 = c.env.cosmo.GOverC2 ∧ 0 < l.p "z_l" ∧ l.p "z_l" < c.zs) →
    c.RaytracesTo x y b → c.uniform.RaytracesTo x y b)

/-- The classes whose parameters are angles and pure numbers: no distance enters their `reduced_deflection_angle`. -/
def LensKind.Angular : LensKind → Prop
  | .sis _ | .point _ | .sheet | .shear | .sie _ | .epl _ _ _ => True
  | _ => False

/-- The redshifts are not among the parameters an angular lens deflects with, and the cosmology does not enter. -/
theorem angular_reduced {k : LensKind} (hk : k.Angular) (e e' : LensEnv) (p a p' a' : Kw)
    (h : ∀ n, n ≠ "z_l" → n ≠ "z_s" → a n = a' n) (x y : ℝ) : k.reduced e p a x y = k.reduced e' p' a' x y := by
  cases k <;> simp only [LensKind.Angular] at hk <;> simp only [LensKind.reduced] <;>
    simp [h "x0" (by decide) (by decide), h "y0" (by decide) (by decide), h "Rein" (by decide) (by decide),
      h "kappa" (by decide) (by decide), h "gamma_1" (by decide) (by decide), h "gamma_2" (by decide) (by decide),
      h "q" (by decide) (by decide), h "phi" (by decide) (by decide), h "t" (by decide) (by decide)]

theorem angular_potential {k : LensKind} (hk : k.Angular) (e e' : LensEnv) (a : Kw) (x y : ℝ) :
    k.potential e a x y = k.potential e' a x y := by
  cases k <;> simp only [LensKind.Angular] at hk <;> rfl

theorem angular_convergence {k : LensKind} (hk : k.Angular) (e e' : LensEnv) (a : Kw) (x y : ℝ) :
    k.convergence e a x y = k.convergence e' a x y := by
  cases k <;> simp only [LensKind.Angular] at hk <;> rfl

/-- C140, what holds in one plane: if all members are of the classes SIS, Point, MassSheet, ExternalShear, SIE and EPL
(parametrised by angles and pure numbers), a SinglePlane does not care what cosmologies its members were given: all its
methods return what they return when the members have its own. -/
theorem C140_single_partial (c : CPlane) (h : ∀ l ∈ c.lenses, l.kind.Angular) (x y : ℝ) :
    c.reduced x y = c.uniform.reduced x y ∧ c.raytrace x y = c.uniform.raytrace x y ∧
    c.physical x y = c.uniform.physical x y ∧ c.potential x y = c.uniform.potential x y ∧
    c.convergence x y = c.uniform.convergence x y ∧ c.surfaceDensity x y = c.uniform.surfaceDensity x y := by
  have hr : c.reduced x y = c.uniform.reduced x y := by
    simp only [CPlane.reduced, CPlane.members, CPlane.uniform, List.map_map, List.foldlM_map]
    generalize ((0 : ℝ), (0 : ℝ)) = s
    generalize c.lenses = ls at h
    induction ls generalizing s with
    | nil => rfl
    | cons l ls ih =>
      simp only [List.foldlM_cons]
      rw [show (l.linked c.zl c.zs).reduced x y = (({ l with env := c.env } : CLens).linked c.zl c.zs).reduced x y from
        angular_reduced (h l (by simp)) _ _ _ _ _ _ (fun _ _ _ => rfl) x y]
      congr 1
      funext s'
      exact ih s' (fun l' hl' => h l' (by simp [hl']))
  have hp : c.potential x y = c.uniform.potential x y := by
    simp only [CPlane.potential, CPlane.members, CPlane.uniform, List.map_map, List.foldlM_map]
    generalize (0 : ℝ) = s
    generalize c.lenses = ls at h
    induction ls generalizing s with
    | nil => rfl
    | cons l ls ih =>
      simp only [List.foldlM_cons]
      rw [show (l.linked c.zl c.zs).potential x y = (({ l with env := c.env } : CLens).linked c.zl c.zs).potential x y from
        angular_potential (h l (by simp)) _ _ _ x y]
      congr 1
      funext s'
      exact ih s' (fun l' hl' => h l' (by simp [hl']))
  have hc : c.convergence x y = c.uniform.convergence x y := by
    simp only [CPlane.convergence, CPlane.members, CPlane.uniform, List.map_map, List.foldlM_map]
    generalize (0 : ℝ) = s
    generalize c.lenses = ls at h
    induction ls generalizing s with
    | nil => rfl
    | cons l ls ih =>
      simp only [List.foldlM_cons]
      rw [show (l.linked c.zl c.zs).convergence x y = (({ l with env := c.env } : CLens).linked c.zl c.zs).convergence x y from
        angular_convergence (h l (by simp)) _ _ _ x y]
      congr 1
      funext s'
      exact ih s' (fun l' hl' => h l' (by simp [hl']))
  refine ⟨hr, ?_, ?_, hp, hc, ?_⟩
  · simp only [CPlane.raytrace, hr]
  · simp only [CPlane.physical, hr]; rfl
  · simp only [CPlane.surfaceDensity, hc]; rfl

/-- `D_s / D_ls`, by which `physical_deflection_angle` exceeds `reduced_deflection_angle`. -/
noncomputable def distRatio (e : LensEnv) (zl zs : ℝ) : ℝ := e.cosmo.angular zs / e.cosmo.angular12 zl zs

theorem angular_physical {l : CLens} (hk : l.kind.Angular) (x y : ℝ) :
    l.physical x y = (l.reduced x y).map fun a =>
      (distRatio l.env (l.p "z_l") (l.p "z_s") * a.1, distRatio l.env (l.p "z_l") (l.p "z_s") * a.2) := by
  obtain ⟨k, e, p⟩ := l
  have hn : k.ownPhysical e p = none := by cases k <;> simp only [LensKind.Angular] at hk <;> rfl
  simp only [CLens.physical, CLens.reduced, LensKind.physical, hn, physicalFromReduced, distRatio]
  cases k.reduced e p p x y <;> rfl

/-- What a Multiplane can do without knowing a member's cosmology. -/
def MemberFits (E : LensEnv) (zs : ℝ) (l : CLens) : Prop :=
  (l.kind.Angular ∧ distRatio l.env (l.p "z_l") zs = distRatio E (l.p "z_l") zs) ∨
  (∃ s M, l.kind = .enclosed s M) ∧ l.env.cosmo.GOverC2 = E.cosmo.GOverC2

theorem fits_physical {E : LensEnv} {zs : ℝ} {l : CLens} (h : MemberFits E zs l) (x y : ℝ) :
    (l.linkedS zs).physical x y = (({ l with env := E } : CLens).linkedS zs).physical x y := by
  rcases h with ⟨hk, hr⟩ | ⟨⟨s, M, hk⟩, hG⟩
  · rw [angular_physical (l := l.linkedS zs) hk, angular_physical (l := (({ l with env := E } : CLens).linkedS zs)) hk]
    have hs : (l.linkedS zs).p "z_s" = zs := by simp [CLens.linkedS]
    have hl : (l.linkedS zs).p "z_l" = l.p "z_l" := by simp [CLens.linkedS]
    have hs' : (({ l with env := E } : CLens).linkedS zs).p "z_s" = zs := by simp [CLens.linkedS]
    have hl' : (({ l with env := E } : CLens).linkedS zs).p "z_l" = l.p "z_l" := by simp [CLens.linkedS]
    rw [hs, hl, hs', hl']
    rw [show (l.linkedS zs).env = l.env from rfl, hr]
    rw [show (l.linkedS zs).reduced x y = (({ l with env := E } : CLens).linkedS zs).reduced x y from
      angular_reduced hk _ _ _ _ _ _ (fun _ _ _ => rfl) x y]
    rfl
  · obtain ⟨k, e, p⟩ := l
    subst hk
    simp only [CLens.physical, CLens.linkedS, LensKind.physical, LensKind.ownPhysical]
    simp only at hG
    rw [hG]

/-- C140, what holds along the line of sight: if each member is either of one of the angular classes with a cosmology that
has the same `D_s / D_ls` for that member's redshift, or an EnclosedMass lens, a Multiplane traces every ray as if all
members had been given its own cosmology. -/
theorem C140_multi_partial (c : CMulti) (h : ∀ l ∈ c.lenses, MemberFits c.env c.zs l) (x y : ℝ) (b : ℝ × ℝ) :
    c.RaytracesTo x y b ↔ c.uniform.RaytracesTo x y b := by
  have hF : ∀ planes : List (MPlane ℝ), List.Forall₂ CMulti.IsPlane c.members planes ↔
      List.Forall₂ CMulti.IsPlane c.uniform.members planes := by
    simp only [CMulti.members, CMulti.uniform, List.map_map]
    generalize c.lenses = ls at h
    induction ls with
    | nil => intro planes; rfl
    | cons l ls ih =>
      intro planes
      have hl : ∀ m : MPlane ℝ, CMulti.IsPlane (l.linkedS c.zs) m ↔
          CMulti.IsPlane ((({ l with env := c.env } : CLens)).linkedS c.zs) m := by
        intro m
        unfold CMulti.IsPlane
        simp only [fits_physical (h l (by simp))]
        rfl
      have ih' := ih (fun l' hl' => h l' (by simp [hl']))
      cases planes with
      | nil => simp
      | cons m ms =>
        simp only [List.map_cons, List.forall₂_cons, ih' ms]
        exact and_congr_left fun _ => hl m
  unfold CMulti.RaytracesTo
  simp only [hF]
  rfl

/-- C140: cosmologies that differ in the Hubble constant alone have the same `D_s / D_ls`, so members of the angular classes
may be given any `h0`. -/
theorem C140_hubble (f : FlatLambda) (h h' G G' : ℝ) (rc rc' : ℝ → ℝ) (hh : h ≠ 0) (hh' : h' ≠ 0)
    (zl zs : ℝ) :
    distRatio ⟨({ f with h0 := h } : FlatLambda).cosmo G, rc⟩ zl zs =
      distRatio ⟨({ f with h0 := h' } : FlatLambda).cosmo G', rc'⟩ zl zs := by
  have hk : ∀ k z, ({ f with h0 := k } : FlatLambda).comovingDistance z
      = 1 / k * ({ f with h0 := 1 } : FlatLambda).comovingDistance z := by
    intro k z
    simp only [FlatLambda.comovingDistance, FlatLambda.hubbleDistance]
    ring
  have key : ∀ (k : ℝ) (g : ℝ) (r : ℝ → ℝ), k ≠ 0 → distRatio ⟨({ f with h0 := k } : FlatLambda).cosmo g, r⟩ zl zs =
      distRatio ⟨({ f with h0 := 1 } : FlatLambda).cosmo 1, fun _ => 0⟩ zl zs := by
    intro k g r hk0
    have h1 : 1 / k ≠ 0 := one_div_ne_zero hk0
    simp only [distRatio, Cosmo.angular, Cosmo.angular12, Cosmo.comoving12, FlatLambda.cosmo]
    rw [hk k zs, hk k zl, ← mul_sub]
    generalize FlatLambda.comovingDistance _ zs = A
    generalize FlatLambda.comovingDistance _ zl = B
    rw [mul_div_assoc (1 / k) A, mul_div_assoc (1 / k) (A - B), mul_div_mul_left _ _ h1]
  rw [key h G rc hh, key h' G' rc' hh']

/-- C140: what a Multiplane of one angular lens does.  It multiplies the deflection by the ratio of its own `D_ls / D_s` to
that of the member. -/
theorem C140_one_plane (c : CMulti) (l : CLens) (hl : c.lenses = [l]) (hk : l.kind.Angular) (f : ℝ → ℝ → ℝ × ℝ)
    (hf : ∀ x y, l.reduced x y = .ok (f x y)) (hflat : c.env.cosmo.transverse = c.env.cosmo.comoving)
    (hr : c.radToArcsec ≠ 0) (hDl : c.env.cosmo.comoving (l.p "z_l") ≠ 0) (hDs : c.env.cosmo.comoving c.zs ≠ 0)
    (hz : 1 + c.zs ≠ 0) (x y : ℝ) (b : ℝ × ℝ) :
    c.RaytracesTo x y b ↔
      b = (x - distRatio l.env (l.p "z_l") c.zs / distRatio c.env (l.p "z_l") c.zs * (f x y).1,
        y - distRatio l.env (l.p "z_l") c.zs / distRatio c.env (l.p "z_l") c.zs * (f x y).2) := by
  set ρ := distRatio l.env (l.p "z_l") c.zs with hρ
  have hpl : ∀ m : MPlane ℝ, CMulti.IsPlane (l.linkedS c.zs) m ↔
      m.z = l.p "z_l" ∧ ∀ x y, m.alpha x y = (ρ * (f x y).1, ρ * (f x y).2) := by
    intro m
    unfold CMulti.IsPlane
    have hp : (l.linkedS c.zs).p "z_l" = l.p "z_l" := by simp [CLens.linkedS]
    have hs : (l.linkedS c.zs).p "z_s" = c.zs := by simp [CLens.linkedS]
    rw [hp]
    refine and_congr_right fun _ => forall_congr' fun u => forall_congr' fun v => ?_
    rw [angular_physical (l := l.linkedS c.zs) hk, hp, hs,
      show (l.linkedS c.zs).reduced u v = l.reduced u v from
        angular_reduced hk _ _ _ _ _ _ (fun n h1 h2 => by simp [CLens.linkedS, h2]) u v, hf u v]
    simp only [Except.map, Except.ok.injEq]
    exact eq_comm
  have hi : distRatio c.env (l.p "z_l") c.zs
      = c.env.cosmo.comoving c.zs / (c.env.cosmo.comoving c.zs - c.env.cosmo.comoving (l.p "z_l")) := by
    simp only [distRatio, Cosmo.angular, Cosmo.angular12, Cosmo.comoving12]
    rw [div_div_div_cancel_right₀ hz]
  have htr : ∀ m : MPlane ℝ, m.z = l.p "z_l" → (∀ x y, m.alpha x y = (ρ * (f x y).1, ρ * (f x y).2)) →
      mpRaytrace c.mpEnv c.zs [m] x y = some (x - ρ / distRatio c.env (l.p "z_l") c.zs * (f x y).1,
        y - ρ / distRatio c.env (l.p "z_l") c.zs * (f x y).2) := by
    intro m hm ha
    unfold mpRaytrace
    rw [mpHelper_sorted c.mpEnv c.zs false false m [] (by simp [SortedByZ]) x y]
    have hir : c.mpEnv.arcsecToRad * c.mpEnv.radToArcsec = 1 := by
      unfold MPEnv.arcsecToRad CMulti.mpEnv; field_simp
    have hd : c.mpEnv.dist = c.env.cosmo.comoving := hflat
    have hdl : c.mpEnv.dist m.z ≠ 0 := by rw [hd, hm]; exact hDl
    have hx : ∀ t : ℝ, t * c.mpEnv.arcsecToRad * c.mpEnv.dist m.z * c.mpEnv.radToArcsec / c.mpEnv.dist m.z = t := by
      intro t
      rw [div_eq_iff hdl]
      linear_combination t * c.mpEnv.dist m.z * hir
    simp only [mpChain, mpBody, hx, List.head?_nil, Option.map_none, Option.getD_none, Option.map_some, ha,
      Option.some.injEq]
    rw [hi]
    simp only [MPEnv.dist12, hd, hm]
    generalize c.env.cosmo.comoving c.zs = S at *
    generalize c.env.cosmo.comoving (l.p "z_l") = L at *
    have hq : ρ / (S / (S - L)) = ρ * (S - L) / S := by rw [div_div_eq_mul_div]
    rw [hq]
    have hcl : ∀ t u : ℝ, (t - ρ * (S - L) / S * u) * S = t * S - ρ * (S - L) * u := by
      intro t u; field_simp
    refine Prod.ext ?_ ?_ <;> simp only [] <;> rw [div_eq_iff hDs, hcl]
    · linear_combination (x * L + (S - L) * (x - ρ * (f x y).1)) * hir
    · linear_combination (y * L + (S - L) * (y - ρ * (f x y).2)) * hir
  unfold CMulti.RaytracesTo
  have hmem : c.members = [l.linkedS c.zs] := by simp [CMulti.members, hl]
  rw [hmem]
  constructor
  · rintro ⟨planes, hF, hb⟩
    obtain ⟨m, hm, rfl⟩ : ∃ m, CMulti.IsPlane (l.linkedS c.zs) m ∧ planes = [m] := by
      rcases planes with _ | ⟨m, _ | ⟨m', ms⟩⟩
      · cases hF
      · exact ⟨m, (List.forall₂_cons.mp hF).1, rfl⟩
      · cases (List.forall₂_cons.mp hF).2
    obtain ⟨h1, h2⟩ := (hpl m).mp hm
    rw [htr m h1 h2] at hb
    exact (Option.some.inj hb).symm
  · intro hb
    refine ⟨[⟨l.p "z_l", fun x y => (ρ * (f x y).1, ρ * (f x y).2), fun _ _ => 0⟩], ?_, ?_⟩
    · exact List.Forall₂.cons ((hpl _).mpr ⟨rfl, fun _ _ => rfl⟩) List.Forall₂.nil
    · rw [htr _ rfl (fun _ _ => rfl), hb]

/-- Two flat cosmologies. -/
noncomputable def cosmoA : LensEnv := ⟨⟨fun z => z, fun z => z, 1⟩, fun _ => 1⟩

@[inherit_doc cosmoA]
noncomputable def cosmoB : LensEnv := ⟨⟨fun z => z / (1 + z), fun z => z / (1 + z), 1⟩, fun _ => 1⟩

theorem cosmoA_sane : FlatSane cosmoA := ⟨rfl, rfl, fun _ _ _ _ h => h⟩

theorem cosmoB_sane : FlatSane cosmoB := by
  refine ⟨rfl, by norm_num [cosmoB], fun a ha b hb h => ?_⟩
  simp only [Set.mem_Ici] at ha hb
  change a / (1 + a) < b / (1 + b)
  rw [div_lt_div_iff₀ (by linarith) (by linarith)]
  nlinarith

theorem distRatio_A : distRatio cosmoA 1 2 = 2 := by
  norm_num [distRatio, cosmoA, Cosmo.angular, Cosmo.angular12, Cosmo.comoving12]

theorem distRatio_B : distRatio cosmoB 1 2 = 4 := by
  norm_num [distRatio, cosmoB, Cosmo.angular, Cosmo.angular12, Cosmo.comoving12]

/-- A lens at the origin, circular, at redshift 1. -/
noncomputable def mixP : Kw := fun n =>
  if n = "z_l" then 1 else if n = "z_s" then 2 else if n = "q" then 1 else if n = "Rein" then 1 else 0

theorem mix_sis (e : LensEnv) (x y : ℝ) :
    (⟨.sis 0, e, mixP⟩ : CLens).reduced x y = .ok (sisDeflection 0 0 1 0 x y) := by
  simp [CLens.reduced, LensKind.reduced, mixP]

theorem sis_at_three : sisDeflection 0 0 1 0 3 0 = (1, 0) := by
  simp [sisDeflection, translateRotate]

/-- C140, how it fails along the line of sight: a Multiplane with one isothermal sphere.  The sphere itself maps (3, 0) to
(2, 0); the Multiplane, whose cosmology is another one, maps it to (1, 0): the deflection has doubled. -/
theorem C140_fails_multi :
    let l : CLens := ⟨.sis 0, cosmoB, mixP⟩
    let c : CMulti := ⟨cosmoA, 2, [l], 1, 1, 1⟩
    l.reduced 3 0 = .ok (1, 0) ∧ (∀ b, c.RaytracesTo 3 0 b ↔ b = (1, 0)) ∧ ∀ b, c.uniform.RaytracesTo 3 0 b ↔ b = (2, 0) := by
  intro l c
  have hz : mixP "z_l" = 1 := by simp [mixP]
  refine ⟨by rw [mix_sis, sis_at_three], fun b => ?_, fun b => ?_⟩
  · rw [C140_one_plane c l rfl trivial _ (mix_sis cosmoB) rfl one_ne_zero (by change mixP "z_l" ≠ 0; rw [hz]; norm_num)
      (by change (2 : ℝ) ≠ 0; norm_num) (by change (1 : ℝ) + 2 ≠ 0; norm_num)]
    change b = (3 - distRatio cosmoB (mixP "z_l") 2 / distRatio cosmoA (mixP "z_l") 2 * _, 0 - distRatio cosmoB (mixP "z_l") 2 / distRatio cosmoA (mixP "z_l") 2 * _) ↔ _
    rw [hz, distRatio_A, distRatio_B, sis_at_three]
    norm_num
  · rw [C140_one_plane c.uniform ⟨.sis 0, cosmoA, mixP⟩ rfl trivial _ (mix_sis cosmoA) rfl one_ne_zero
      (by change mixP "z_l" ≠ 0; rw [hz]; norm_num) (by change (2 : ℝ) ≠ 0; norm_num) (by change (1 : ℝ) + 2 ≠ 0; norm_num)]
    change b = (3 - distRatio cosmoA (mixP "z_l") 2 / distRatio cosmoA (mixP "z_l") 2 * _, 0 - distRatio cosmoA (mixP "z_l") 2 / distRatio cosmoA (mixP "z_l") 2 * _) ↔ _
    rw [hz, distRatio_A, sis_at_three]
    norm_num

/-- C140, how it fails in one plane: a SinglePlane with one EnclosedMass lens deflects by half of what it would with its own
cosmology. -/
theorem C140_fails_single :
    let l : CLens := ⟨.enclosed 0 fun _ _ => 1, cosmoB, mixP⟩
    let c : CPlane := ⟨cosmoA, 1, 2, [l]⟩
    c.reduced 1 0 = .ok (1, 0) ∧ c.uniform.reduced 1 0 = .ok (2, 0) := by
  have hd : enclosedDeflection 1 0 0 1 0 (fun _ => 1) 0 1 0 = (4, 0) := by
    norm_num [enclosedDeflection, translateRotate, derotate]
  have key : ∀ e E : LensEnv, e.cosmo.GOverC2 = 1 → distRatio e 1 2 ≠ 0 →
      (⟨E, 1, 2, [⟨.enclosed 0 fun _ _ => 1, e, mixP⟩]⟩ : CPlane).reduced 1 0 = .ok (4 / distRatio e 1 2, 0) := by
    intro e E hG hne
    simp only [CPlane.reduced, CPlane.members, List.map_cons, List.map_nil, List.foldlM_cons, List.foldlM_nil, CLens.reduced,
      CLens.linked, LensKind.reduced, mixP, hG]
    simp only [↓reduceIte, String.reduceEq, hd, reducedFromPhysical]
    simp only [distRatio, Bind.bind, Except.bind, Pure.pure, Except.pure, zero_add, mul_zero]
    rw [← one_div_div (e.cosmo.angular 2) (e.cosmo.angular12 1 2), one_div_mul_eq_div]
  intro l c
  refine ⟨?_, ?_⟩
  · rw [show c = ⟨cosmoA, 1, 2, [⟨.enclosed 0 fun _ _ => 1, cosmoB, mixP⟩]⟩ from rfl, key cosmoB cosmoA rfl (by rw [distRatio_B]; norm_num), distRatio_B]
    norm_num
  · rw [show c.uniform = ⟨cosmoA, 1, 2, [⟨.enclosed 0 fun _ _ => 1, cosmoA, mixP⟩]⟩ from rfl, key cosmoA cosmoA rfl (by rw [distRatio_A]; norm_num), distRatio_A]
    norm_num

/-- C140 fails. -/
theorem C140_fails : ¬ C140_statement := by
  rintro ⟨h, -⟩
  have h1 := C140_fails_single
  have h2 := h ⟨cosmoA, 1, 2, [⟨.enclosed 0 fun _ _ => 1, cosmoB, mixP⟩]⟩ 1 0 cosmoA_sane one_pos one_lt_two
    (by simp only [List.mem_singleton, forall_eq]; exact ⟨cosmoB_sane, rfl⟩)
  simp only at h1
  rw [h1.1, h1.2] at h2
  have h3 := congrArg (fun r => match r with | Except.ok v => v.1 | Except.error _ => (0 : ℝ)) h2
  norm_num at h3

/-- Both halves of the claim fail. -/
example : ¬ ∀ (c : CMulti) (x y : ℝ) (b : ℝ × ℝ), FlatSane c.env → 0 < c.zs → c.radToArcsec ≠ 0 →
    (∀ l ∈ c.lenses, FlatSane l.env ∧ l.env.cosmo.GOverC2 = c.env.cosmo.GOverC2 ∧ 0 < l.p "z_l" ∧ l.p "z_l" < c.zs) →
    c.RaytracesTo x y b → c.uniform.RaytracesTo x y b := by
  intro h
  obtain ⟨-, h1, h2⟩ := C140_fails_multi
  have := h ⟨cosmoA, 2, [⟨.sis 0, cosmoB, mixP⟩], 1, 1, 1⟩ 3 0 (1, 0) cosmoA_sane two_pos one_ne_zero
    (by simp only [List.mem_singleton, forall_eq]; exact ⟨cosmoB_sane, rfl, by norm_num [mixP], by norm_num [mixP]⟩) ((h1 _).mpr rfl)
  have h3 := (h2 _).mp this
  norm_num [Prod.ext_iff] at h3

/-- The hypotheses of the partial claims are met by a scene with two cosmologies and a deflection that is not zero: the
isothermal sphere above in a SinglePlane. -/
example : let c : CPlane := ⟨cosmoA, 1, 2, [⟨.sis 0, cosmoB, mixP⟩]⟩
    (∀ l ∈ c.lenses, l.kind.Angular) ∧ c.raytrace 3 0 = .ok (2, 0) := by
  intro c
  refine ⟨by simp [c, LensKind.Angular], ?_⟩
  have : c.reduced 3 0 = .ok (1, 0) := by
    have h0 := sis_at_three
    simp [c, CPlane.reduced, CPlane.members, CLens.reduced, CLens.linked, LensKind.reduced, mixP, Bind.bind, Except.bind, Pure.pure, Except.pure, h0]
  simp only [CPlane.raytrace, this, Bind.bind, Except.bind, Pure.pure, Except.pure]
  norm_num

/-- An EnclosedMass lens and a sphere whose cosmology differs in the distance to the lens only by a factor fit. -/
example : MemberFits cosmoA 2 ⟨.enclosed 0 fun _ _ => 1, cosmoB, mixP⟩ ∧
    MemberFits cosmoA 2 ⟨.sis 0, ⟨⟨fun z => 3 * z, fun z => 3 * z, 1⟩, fun _ => 1⟩, mixP⟩ := by
  refine ⟨Or.inr ⟨⟨_, _, rfl⟩, rfl⟩, Or.inl ⟨trivial, ?_⟩⟩
  norm_num [distRatio, cosmoA, Cosmo.angular, Cosmo.angular12, Cosmo.comoving12, mixP]

end Caustics

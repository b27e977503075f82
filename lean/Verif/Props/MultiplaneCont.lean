import Verif.Lemmas.MultiplaneCont
import Verif.Props.Multiplane
import Verif.Model.Lenses
import Mathlib.Tactic.FunProp
import Mathlib.Tactic.Positivity
import Mathlib.Data.Real.Basic

/-!
C126: a `Multiplane` with free redshifts.  Rays depend continuously on the redshifts of the lenses and of the source, on
the parameters of the lenses and of the cosmology, also where two lens planes pass through each other.
-/

open Filter Topology

namespace Caustics

/-- A `Multiplane` of `n` lenses, listed in a fixed order, each of them, the distances, the source redshift and the ray
depending on parameters from `P`. -/
structure MPFamily (P : Type) (n : ℕ) where
  consts : MPEnv ℝ
  dist : P → ℝ → ℝ
  lens : Fin n → P → MPlane ℝ
  zs : P → ℝ
  x : P → ℝ
  y : P → ℝ

namespace MPFamily

variable {P : Type} {n : ℕ} (F : MPFamily P n)

/-- The cosmology with these parameters. -/
def env (p : P) : MPEnv ℝ := { F.consts with dist := F.dist p }

/-- The lenses in the order in which they are listed. -/
def list (p : P) : List (MPlane ℝ) := List.ofFn fun i => F.lens i p

/-- `multiplane.raytrace(x, y, params)`. -/
noncomputable def trace (p : P) : Option (ℝ × ℝ) := mpRaytrace (F.env p) (F.zs p) (F.list p) (F.x p) (F.y p)

/-- Everything that goes into the calculation changes continuously at `p0`; the deflection of each lens at least where
the ray with positions `beta` meets it. -/
structure ContAt [TopologicalSpace P] (p0 : P) (beta : ℝ → ℝ × ℝ) : Prop where
  z : ∀ i, ContinuousAt (fun p => (F.lens i p).z) p0
  zs : ContinuousAt F.zs p0
  x : ContinuousAt F.x p0
  y : ContinuousAt F.y p0
  dist : ∀ z, 0 < z → ContinuousAt (fun q : P × ℝ => F.dist q.1 q.2) (p0, z)
  alpha : ∀ i, ContinuousAt (fun q : P × ℝ × ℝ => (F.lens i q.1).alpha q.2.1 q.2.2) (p0, beta (F.lens i p0).z)

/-- All lenses are between the observer and the source, and no distance is zero. -/
def Inside (p : P) : Prop := Between (F.dist p) (F.list p) (F.zs p)

end MPFamily

variable {P : Type} [TopologicalSpace P] {n : ℕ}

/-- Near a system with all lenses in front of the source the lenses stay there. -/
theorem inside_near (F : MPFamily P n) (p0 : P) {beta : ℝ → ℝ × ℝ} (hc : F.ContAt p0 beta) (h0 : F.Inside p0)
    (hd : ∀ p z, 0 < z → F.dist p z ≠ 0) : ∀ᶠ p in 𝓝 p0, F.Inside p := by
  have h1 : ∀ i, ∀ᶠ p in 𝓝 p0, 0 < (F.lens i p).z ∧ (F.lens i p).z < F.zs p := by
    intro i
    have hi := h0.1 (F.lens i p0) (List.mem_ofFn.2 ⟨i, rfl⟩)
    exact ((hc.z i).eventually_const_lt hi.1).and ((hc.z i).eventually_lt hc.zs hi.2)
  filter_upwards [eventually_all.2 h1, hc.zs.eventually_const_lt h0.2.1] with p hp hs
  refine ⟨fun l hl => ?_, hs, hd p⟩
  obtain ⟨i, rfl⟩ := List.mem_ofFn.1 hl
  exact hp i

/-- The positions of the ray on all lens planes and on the source are continuous. -/
theorem positions_continuous (F : MPFamily P n) (p0 : P) (beta : P → ℝ → ℝ × ℝ)
    (hray : ∀ p, IsRay (F.dist p) (F.list p) (F.x p) (F.y p) (beta p)) (hc : F.ContAt p0 (beta p0)) (h0 : F.Inside p0)
    (hd : ∀ p z, 0 < z → F.dist p z ≠ 0) :
    (∀ i, ContinuousAt (fun p => beta p (F.lens i p).z) p0) ∧ ContinuousAt (fun p => beta p (F.zs p)) p0 := by
  have hpos : ∀ i, 0 < (F.lens i p0).z := fun i => (h0.1 _ (List.mem_ofFn.2 ⟨i, rfl⟩)).1
  have hin := inside_near F p0 hc h0 hd
  have hD : ∀ {f : P → ℝ}, ContinuousAt f p0 → 0 < f p0 → ContinuousAt (fun p => F.dist p (f p)) p0 := by
    intro f hf hf0
    exact (hc.dist _ hf0).comp₂ continuousAt_id hf
  refine ray_tendsto_param (𝓝 p0) p0 (fun i p => (F.lens i p).z) (fun i p => F.dist p (F.lens i p).z)
    (fun i p t => (F.lens i p).alpha t.1 t.2) (fun i p => beta p (F.lens i p).z) (fun p => (F.x p, F.y p)) F.zs
    (fun p => F.dist p (F.zs p)) (fun p => beta p (F.zs p)) hc.z (fun i => hD (hc.z i) (hpos i))
    (fun i => hd _ _ (hpos i)) ?_ ?_ ?_ (hc.x.prodMk hc.y) hc.zs (hD hc.zs h0.2.1) (hd _ _ h0.2.1) ?_ ?_ ?_ ?_
  · intro i j h
    simp only [h]
  · intro j h
    simp only [h]
  · intro i
    have := hc.alpha i
    rw [ContinuousAt, nhds_prod_eq] at this
    exact this
  · intro i
    filter_upwards [hin] with p hp
    exact isRay_ofFn (hray p) (hp.1 _ (List.mem_ofFn.2 ⟨i, rfl⟩)).1
  · intro i
    exact isRay_ofFn (hray p0) (hpos i)
  · filter_upwards [hin] with p hp
    exact isRay_ofFn (hray p) hp.2.1
  · exact isRay_ofFn (hray p0) h0.2.1

/-- C126, full statement: where the ray meets the source is a continuous function of all parameters, near every system
with all lenses in front of the source. -/
def C126_statement : Prop :=
  ∀ (P : Type) [TopologicalSpace P] (n : ℕ) (F : MPFamily P n) (p0 : P) (beta : ℝ → ℝ × ℝ), n ≠ 0 →
    F.consts.radToArcsec ≠ 0 → (∀ p z, 0 < z → F.dist p z ≠ 0) → F.Inside p0 →
    IsRay (F.dist p0) (F.list p0) (F.x p0) (F.y p0) beta → F.ContAt p0 beta →
    ∃ f : P → ℝ × ℝ, ContinuousAt f p0 ∧ ∀ᶠ p in 𝓝 p0, F.trace p = some (f p)

/-- C126: the solution of the multiplane lens equation is continuous in all parameters; no exception is made for planes
at the same redshift or passing through each other. -/
theorem C126_lens_equation (F : MPFamily P n) (p0 : P) (beta : P → ℝ → ℝ × ℝ)
    (hray : ∀ p, IsRay (F.dist p) (F.list p) (F.x p) (F.y p) (beta p)) (hc : F.ContAt p0 (beta p0)) (h0 : F.Inside p0)
    (hd : ∀ p z, 0 < z → F.dist p z ≠ 0) : ContinuousAt (fun p => beta p (F.zs p)) p0 :=
  (positions_continuous F p0 beta hray hc h0 hd).2

/-- C126 partial: `raytrace` agrees with one continuous function wherever the lenses happen to be listed in order of
redshift, ties included; and a `Multiplane` of the lenses sorted by redshift agrees with that function everywhere near.
Missing: parameters for which the listed order is not the order of redshift, where the code misbehaves
(`C126_fails_raises`, `C126_fails_jump`). -/
theorem C126_in_order_partial (F : MPFamily P n) (p0 : P) (beta : ℝ → ℝ × ℝ) (hn : n ≠ 0) (hr : F.consts.radToArcsec ≠ 0)
    (hd : ∀ p z, 0 < z → F.dist p z ≠ 0) (h0 : F.Inside p0)
    (hray : IsRay (F.dist p0) (F.list p0) (F.x p0) (F.y p0) beta) (hc : F.ContAt p0 beta) :
    ∃ f : P → ℝ × ℝ, ContinuousAt f p0 ∧ (∀ᶠ p in 𝓝 p0, SortedByZ (F.list p) → F.trace p = some (f p)) ∧
      ∀ᶠ p in 𝓝 p0, ∀ ls, ls.Perm (F.list p) → SortedByZ ls →
        mpRaytrace (F.env p) (F.zs p) ls (F.x p) (F.y p) = some (f p) := by
  classical
  have hex : ∀ p, ∃ b, IsRay (F.dist p) (F.list p) (F.x p) (F.y p) b := fun p => ray_exists _ _ _ _
  let B : P → ℝ → ℝ × ℝ := fun p => if p = p0 then beta else (hex p).choose
  have hB : ∀ p, IsRay (F.dist p) (F.list p) (F.x p) (F.y p) (B p) := by
    intro p
    simp only [B]
    split_ifs with h
    · rw [h]; exact hray
    · exact (hex p).choose_spec
  have hB0 : B p0 = beta := if_pos rfl
  have hin := inside_near F p0 hc h0 hd
  have hne : ∀ p, F.list p ≠ [] := fun p => by simpa [MPFamily.list, List.ofFn_eq_nil_iff] using hn
  refine ⟨fun p => B p (F.zs p), C126_lens_equation F p0 B hB (hB0 ▸ hc) h0 hd, ?_, ?_⟩
  · filter_upwards [hin] with p hp hs
    exact C16_lens_equation (F.env p) (F.zs p) hr (F.list p) (hne p) hs hp (F.x p) (F.y p) (B p) (hB p)
  · filter_upwards [hin] with p hp ls hperm hs
    have hne' : ls ≠ [] := fun h => hne p (by rw [h] at hperm; exact (List.nil_perm.1 hperm))
    refine C16_lens_equation (F.env p) (F.zs p) hr ls hne' hs
      ⟨fun l hl => hp.1 l (hperm.mem_iff.1 hl), hp.2.1, hp.2.2⟩ (F.x p) (F.y p) (B p) ?_
    intro z hz
    have := hB p z hz
    have hpf := hperm.filter (fun l => decide (l.z < z))
    rw [(hpf.map _).sum_eq, (hpf.map _).sum_eq]
    exact this

/-- C126: the delay too is continuous where no two planes are at one redshift (for planes that meet it is not:
C106). -/
theorem C126_delay_partial (F : MPFamily P n) (p0 : P) (beta : ℝ → ℝ × ℝ) (hn : n ≠ 0) (hr : F.consts.radToArcsec ≠ 0)
    (hcs : F.consts.cMpcS ≠ 0)
    (hd : ∀ p z, 0 < z → F.dist p z ≠ 0) (hinj : ∀ z z', 0 < z → z < z' → F.dist p0 z ≠ F.dist p0 z') (h0 : F.Inside p0)
    (hsort : ∀ i j : Fin n, i < j → (F.lens i p0).z < (F.lens j p0).z)
    (hray : IsRay (F.dist p0) (F.list p0) (F.x p0) (F.y p0) beta) (hc : F.ContAt p0 beta)
    (hpsi : ∀ i, ContinuousAt (fun q : P × ℝ × ℝ => (F.lens i q.1).psi q.2.1 q.2.2) (p0, beta (F.lens i p0).z))
    (sh ge : Bool) (hsg : sh || ge) :
    ∃ f : P → ℝ, ContinuousAt f p0 ∧
      ∀ᶠ p in 𝓝 p0, mpTimeDelay (F.env p) (F.zs p) sh ge (F.list p) (F.x p) (F.y p) = some (f p) := by
  classical
  have hex : ∀ p, ∃ b, IsRay (F.dist p) (F.list p) (F.x p) (F.y p) b := fun p => ray_exists _ _ _ _
  let B : P → ℝ → ℝ × ℝ := fun p => if p = p0 then beta else (hex p).choose
  have hB : ∀ p, IsRay (F.dist p) (F.list p) (F.x p) (F.y p) (B p) := by
    intro p
    simp only [B]
    split_ifs with h
    · rw [h]; exact hray
    · exact (hex p).choose_spec
  have hB0 : B p0 = beta := if_pos rfl
  have hin := inside_near F p0 hc h0 hd
  have hne : ∀ p, F.list p ≠ [] := fun p => by simpa [MPFamily.list, List.ofFn_eq_nil_iff] using hn
  have hpos : ∀ i, 0 < (F.lens i p0).z ∧ (F.lens i p0).z < F.zs p0 := fun i => h0.1 _ (List.mem_ofFn.2 ⟨i, rfl⟩)
  have hs : ∀ᶠ p in 𝓝 p0, SortedByZ (F.list p) := by
    have h1 : ∀ i j : Fin n, ∀ᶠ p in 𝓝 p0, i < j → (F.lens i p).z < (F.lens j p).z := by
      intro i j
      by_cases hij : i < j
      · exact ((hc.z i).eventually_lt (hc.z j) (hsort i j hij)).mono fun p h _ => h
      · exact Eventually.of_forall fun p h => absurd h hij
    filter_upwards [eventually_all.2 fun i => eventually_all.2 (h1 i)] with p hp
    rw [SortedByZ, MPFamily.list, List.pairwise_ofFn]
    exact fun i j h => (hp i j h).le
  obtain ⟨hlens, -⟩ := positions_continuous F p0 B hB (hB0 ▸ hc) h0 hd
  -- the next redshift
  let zn : Fin n → P → ℝ := fun i p => if h : (i : ℕ) + 1 < n then (F.lens ⟨i + 1, h⟩ p).z else F.zs p
  have hzn : ∀ i, ContinuousAt (zn i) p0 := by
    intro i
    by_cases h : (i : ℕ) + 1 < n
    · simp only [zn, dif_pos h]; exact hc.z _
    · simp only [zn, dif_neg h]; exact hc.zs
  have hznlt : ∀ i, (F.lens i p0).z < zn i p0 := by
    intro i
    by_cases h : (i : ℕ) + 1 < n
    · simp only [zn, dif_pos h]; exact hsort _ _ (by rw [Fin.lt_def]; exact Nat.lt_succ_self _)
    · simp only [zn, dif_neg h]; exact (hpos i).2
  have hpairs : ∀ p, (F.list p).zip ((F.list p).tail.map MPlane.z ++ [F.zs p]) =
      List.ofFn fun i => (F.lens i p, zn i p) := by
    intro p
    apply List.ext_getElem
    · simp [MPFamily.list]; omega
    · intro i h1 h2
      have hi : i < n := by simpa using h2
      simp only [MPFamily.list, List.getElem_zip, List.getElem_ofFn, Prod.mk.injEq, true_and, zn]
      rw [List.getElem_append]
      by_cases h : i + 1 < n
      · simp [h, show i < n - 1 by omega]
      · simp [h, show ¬ i < n - 1 by omega]
  have hD : ∀ {f : P → ℝ}, ContinuousAt f p0 → 0 < f p0 → ContinuousAt (fun p => F.dist p (f p)) p0 := by
    intro f hf hf0
    exact (hc.dist _ hf0).comp₂ continuousAt_id hf
  have hal : ∀ i, ContinuousAt (fun p => (F.lens i p).alpha (B p (F.lens i p).z).1 (B p (F.lens i p).z).2) p0 := by
    intro i
    have h := hc.alpha i
    rw [← hB0] at h
    exact h.comp₂ (f := fun q : P × ℝ × ℝ => (F.lens i q.1).alpha q.2.1 q.2.2) continuousAt_id (hlens i)
  have hps : ∀ i, ContinuousAt (fun p => (F.lens i p).psi (B p (F.lens i p).z).1 (B p (F.lens i p).z).2) p0 := by
    intro i
    have h := hpsi i
    rw [← hB0] at h
    exact h.comp₂ (f := fun q : P × ℝ × ℝ => (F.lens i q.1).psi q.2.1 q.2.2) continuousAt_id (hlens i)
  have hDl : ∀ i, ContinuousAt (fun p => F.dist p (F.lens i p).z) p0 := fun i => hD (hc.z i) (hpos i).1
  have hDn : ∀ i, ContinuousAt (fun p => F.dist p (zn i p)) p0 := fun i => hD (hzn i) ((hpos i).1.trans (hznlt i))
  have hDs : ContinuousAt (fun p => F.dist p (F.zs p)) p0 := hD hc.zs h0.2.1
  let tau : Fin n → P → ℝ := fun i p => (1 + (F.lens i p).z) * F.dist p (F.lens i p).z * F.dist p (zn i p)
    / ((F.dist p (zn i p) - F.dist p (F.lens i p).z) * F.consts.cMpcS) / F.consts.daysToSeconds
  let bet : Fin n → P → ℝ := fun i p => (F.dist p (zn i p) - F.dist p (F.lens i p).z) * F.dist p (F.zs p)
    / (F.dist p (zn i p) * (F.dist p (F.zs p) - F.dist p (F.lens i p).z))
  have htau : ∀ i, ContinuousAt (tau i) p0 := fun i =>
    (((((hc.z i).const_add 1).mul (hDl i)).mul (hDn i)).div (((hDn i).sub (hDl i)).mul_const _)
      (mul_ne_zero (sub_ne_zero.2 (hinj _ _ (hpos i).1 (hznlt i)).symm) hcs)).div_const _
  have hbet : ∀ i, ContinuousAt (bet i) p0 := fun i =>
    (((hDn i).sub (hDl i)).mul hDs).div ((hDn i).mul (hDs.sub (hDl i)))
      (mul_ne_zero (hd _ _ ((hpos i).1.trans (hznlt i))) (sub_ne_zero.2 (hinj _ _ (hpos i).1 (hpos i).2).symm))
  let al : Fin n → P → ℝ × ℝ := fun i p => (F.lens i p).alpha (B p (F.lens i p).z).1 (B p (F.lens i p).z).2
  let geo : P → ℝ := fun p => ∑ i, tau i p * (1 / F.consts.radToArcsec) ^ 2 * (1 / 2) * ((al i p).1 ^ 2 + (al i p).2 ^ 2)
  let sha : P → ℝ := fun p => ∑ i, tau i p * bet i p * (1 / F.consts.radToArcsec) ^ 2
    * (F.lens i p).psi (B p (F.lens i p).z).1 (B p (F.lens i p).z).2
  have hgeo : ContinuousAt geo p0 := by
    refine tendsto_finsetSum _ fun i _ => ?_
    exact (((htau i).mul_const _).mul_const _).mul (((hal i).fst.pow 2).add ((hal i).snd.pow 2))
  have hsha : ContinuousAt sha p0 := by
    refine tendsto_finsetSum _ fun i _ => ?_
    exact (((htau i).mul (hbet i)).mul_const _).mul (hps i)
  have hval : ∀ᶠ p in 𝓝 p0,
      mpTimeDelay (F.env p) (F.zs p) false true (F.list p) (F.x p) (F.y p) = some (geo p) ∧
      mpTimeDelay (F.env p) (F.zs p) true false (F.list p) (F.x p) (F.y p) = some (-sha p) ∧
      mpTimeDelay (F.env p) (F.zs p) true true (F.list p) (F.x p) (F.y p) = some (geo p - sha p) := by
    filter_upwards [hin, hs] with p hp hsp
    have h := C57_time_delay (F.env p) (F.zs p) hr (F.list p) (hne p) hsp hp (F.x p) (F.y p) (B p) (hB p)
    simp only [hpairs, List.map_ofFn, List.sum_ofFn, Function.comp_def] at h
    exact h
  cases sh <;> cases ge
  · simp at hsg
  · exact ⟨geo, hgeo, hval.mono fun p h => h.1⟩
  · exact ⟨_, hsha.neg, hval.mono fun p h => h.2.1⟩
  · exact ⟨_, hgeo.sub hsha, hval.mono fun p h => h.2.2⟩

/-- C126: thin lenses whose reduced deflection is continuous in position and parameters have continuous physical
deflections, as long as the lens is not at the distance of the source. -/
theorem C126_thin (dist : P → ℝ → ℝ) (consts : MPEnv ℝ) (L : P → ThinLensFn ℝ) (zs : P → ℝ) (p0 : P) (t : ℝ × ℝ)
    (hz : ContinuousAt (fun p => (L p).z) p0) (hzs : ContinuousAt zs p0)
    (hdl : ContinuousAt (fun q : P × ℝ => dist q.1 q.2) (p0, (L p0).z))
    (hds : ContinuousAt (fun q : P × ℝ => dist q.1 q.2) (p0, zs p0)) (hne : dist p0 (L p0).z ≠ dist p0 (zs p0))
    (hz1 : 1 + zs p0 ≠ 0) (hred : ContinuousAt (fun q : P × ℝ × ℝ => (L q.1).reduced q.2.1 q.2.2) (p0, t)) :
    ContinuousAt (fun q : P × ℝ × ℝ =>
      ((L q.1).plane { consts with dist := dist q.1 } (zs q.1)).alpha q.2.1 q.2.2) (p0, t) := by
  have hfst : ContinuousAt (fun q : P × ℝ × ℝ => q.1) (p0, t) := continuousAt_fst
  have hz' : ContinuousAt (fun q : P × ℝ × ℝ => zs q.1) (p0, t) := ContinuousAt.comp (g := zs) (f := Prod.fst) hzs hfst
  have hl' : ContinuousAt (fun q : P × ℝ × ℝ => (L q.1).z) (p0, t) :=
    ContinuousAt.comp (g := fun p => (L p).z) (f := Prod.fst) hz hfst
  have h1 : ContinuousAt (fun q : P × ℝ × ℝ => dist q.1 (zs q.1)) (p0, t) :=
    ContinuousAt.comp₂ (f := fun q : P × ℝ => dist q.1 q.2) hds hfst hz'
  have h2 : ContinuousAt (fun q : P × ℝ × ℝ => dist q.1 (L q.1).z) (p0, t) :=
    ContinuousAt.comp₂ (f := fun q : P × ℝ => dist q.1 q.2) hdl hfst hl'
  have hw : ContinuousAt (fun q : P × ℝ × ℝ => (dist q.1 (zs q.1) / (1 + zs q.1))
      / ((dist q.1 (zs q.1) - dist q.1 (L q.1).z) / (1 + zs q.1))) (p0, t) :=
    (h1.div (hz'.const_add 1) hz1).div ((h1.sub h2).div (hz'.const_add 1) hz1)
      (div_ne_zero (sub_ne_zero.2 hne.symm) hz1)
  exact (hw.mul hred.fst).prodMk (hw.mul hred.snd)

/-- C126 for isothermal spheres with free positions, Einstein radii and redshifts behind one another: `raytrace` follows
one continuous function wherever the listed order is the order of redshift, ties included, if the ray misses the centres
or the lenses are softened. -/
theorem C126_sis_partial (consts : MPEnv ℝ) (dist : P → ℝ → ℝ) (z x0 y0 Rein : Fin n → P → ℝ) (s : ℝ) (zs x y : P → ℝ) (p0 : P)
    (hn : n ≠ 0) (hr : consts.radToArcsec ≠ 0) (hd : ∀ p z, 0 < z → dist p z ≠ 0)
    (hdc : ∀ z, 0 < z → ContinuousAt (fun q : P × ℝ => dist q.1 q.2) (p0, z)) (hz : ∀ i, ContinuousAt (z i) p0)
    (hx0 : ∀ i, ContinuousAt (x0 i) p0) (hy0 : ∀ i, ContinuousAt (y0 i) p0) (hR : ∀ i, ContinuousAt (Rein i) p0)
    (hzs : ContinuousAt zs p0) (hx : ContinuousAt x p0) (hy : ContinuousAt y p0) (hs0 : 0 < zs p0)
    (hb : ∀ i, 0 < z i p0 ∧ z i p0 < zs p0 ∧ dist p0 (z i p0) ≠ dist p0 (zs p0)) (beta : ℝ → ℝ × ℝ)
    (planes : P → List (MPlane ℝ)) (hpl : planes = fun p => List.ofFn fun i =>
      ThinLensFn.plane { consts with dist := dist p } (zs p)
        ⟨z i p, sisDeflection (x0 i p) (y0 i p) (Rein i p) s, sisPotential (x0 i p) (y0 i p) (Rein i p) s⟩)
    (hray : IsRay (dist p0) (planes p0) (x p0) (y p0) beta)
    (hoff : ∀ i, √(((beta (z i p0)).1 - x0 i p0) ^ 2 + ((beta (z i p0)).2 - y0 i p0) ^ 2) + s ≠ 0) :
    ∃ f : P → ℝ × ℝ, ContinuousAt f p0 ∧ ∀ᶠ p in 𝓝 p0, SortedByZ (planes p) →
      mpRaytrace { consts with dist := dist p } (zs p) (planes p) (x p) (y p) = some (f p) := by
  subst hpl
  let F : MPFamily P n := ⟨consts, dist, fun i p => ThinLensFn.plane { consts with dist := dist p } (zs p)
        ⟨z i p, sisDeflection (x0 i p) (y0 i p) (Rein i p) s, sisPotential (x0 i p) (y0 i p) (Rein i p) s⟩, zs, x, y⟩
  have hin : F.Inside p0 := by
    refine ⟨?_, hs0, hd p0⟩
    intro l hl
    obtain ⟨i, rfl⟩ := List.mem_ofFn.1 hl
    exact ⟨(hb i).1, (hb i).2.1⟩
  have hc : F.ContAt p0 beta := by
    refine ⟨hz, hzs, hx, hy, hdc, fun i => ?_⟩
    refine C126_thin dist consts (fun p => ⟨z i p, sisDeflection (x0 i p) (y0 i p) (Rein i p) s,
      sisPotential (x0 i p) (y0 i p) (Rein i p) s⟩) zs p0 (beta (z i p0)) (hz i) hzs (hdc _ (hb i).1) (hdc _ hs0)
      (hb i).2.2 (by linarith) ?_
    have hfst : ContinuousAt (fun q : P × ℝ × ℝ => q.1) (p0, beta (z i p0)) := continuousAt_fst
    have c1 : ContinuousAt (fun q : P × ℝ × ℝ => x0 i q.1) (p0, beta (z i p0)) :=
      ContinuousAt.comp (g := x0 i) (f := Prod.fst) (hx0 i) hfst
    have c2 : ContinuousAt (fun q : P × ℝ × ℝ => y0 i q.1) (p0, beta (z i p0)) :=
      ContinuousAt.comp (g := y0 i) (f := Prod.fst) (hy0 i) hfst
    have c3 : ContinuousAt (fun q : P × ℝ × ℝ => Rein i q.1) (p0, beta (z i p0)) :=
      ContinuousAt.comp (g := Rein i) (f := Prod.fst) (hR i) hfst
    have cx : ContinuousAt (fun q : P × ℝ × ℝ => q.2.1 - x0 i q.1) (p0, beta (z i p0)) :=
      (continuous_fst.comp continuous_snd).continuousAt.sub c1
    have cy : ContinuousAt (fun q : P × ℝ × ℝ => q.2.2 - y0 i q.1) (p0, beta (z i p0)) :=
      (continuous_snd.comp continuous_snd).continuousAt.sub c2
    have cr : ContinuousAt (fun q : P × ℝ × ℝ => √((q.2.1 - x0 i q.1) ^ 2 + (q.2.2 - y0 i q.1) ^ 2) + s)
        (p0, beta (z i p0)) := ((cx.pow 2).add (cy.pow 2)).sqrt.add_const s
    exact ((c3.mul cx).div cr (hoff i)).prodMk ((c3.mul cy).div cr (hoff i))
  obtain ⟨f, h1, h2, -⟩ := C126_in_order_partial F p0 beta hn hr hd hin hray hc
  exact ⟨f, h1, h2⟩

/-! ### Where the code is not continuous -/

/-- C126, the failure: of two lenses listed last and at one redshift let the last one come forward by any amount,
however small.  Ray tracing raises. -/
theorem C126_fails_raises (e : MPEnv ℝ) (zs : ℝ) (init : List (MPlane ℝ)) (a b : MPlane ℝ) (hz : a.z = b.z) (x y : ℝ)
    {d : ℝ} (hd : 0 < d) : mpRaytrace e zs (init ++ [a, ⟨b.z - d, b.alpha, b.psi⟩]) x y = none := by
  have h := (C17_fails_last_not_farthest e zs (init ++ [a]) ⟨b.z - d, b.alpha, b.psi⟩ a (by simp)
    (by simp only; linarith) true true x y).1
  simpa using h

/-- Distances `D(z) = z`. -/
def linEnv : MPEnv ℝ := ⟨fun z => z, 4, 2, 1⟩

/-- A sheet at redshift `z`. -/
def sheetPlane (z : ℝ) : MPlane ℝ := ⟨z, fun x y => (x, y), fun _ _ => 0⟩

/-- C126, the other failure: three sheets listed at redshifts `1 + t`, 1 and 3.  For `t = 0` the ray meets the source at
-5, for every small positive `t` near -1. -/
theorem C126_fails_jump : mpRaytrace linEnv 4 [sheetPlane 1, sheetPlane 1, sheetPlane 3] 12 0 = some (-5, 0) ∧
    ∃ f : ℝ → ℝ, (∀ t, 0 < t → t < 1 → mpRaytrace linEnv 4 [sheetPlane (1 + t), sheetPlane 1, sheetPlane 3] 12 0 =
      some (f t, 0)) ∧ Tendsto f (𝓝 0) (𝓝 (-1)) := by
  constructor
  · have ho : lensPlanes [(1 : ℝ), 1, 3] = [0, 1, 2] := by
      simp [lensPlanes, List.zipIdx, List.insertionSort]
    simp [mpRaytrace, mpHelper, ho, sheetPlane, mpLoop, mpBody, MPEnv.dist12, MPEnv.arcsecToRad, linEnv]
    norm_num
  · refine ⟨fun t => 3 + 3 * t / (1 + t) - 3 / (1 + t) - 1 - t / (1 + t), ?_, ?_⟩
    · intro t h0 h1
      have ho : lensPlanes [1 + t, (1 : ℝ), 3] = [1, 0, 2] := by
        have a1 : ¬ t ≤ 0 := not_le.2 h0
        have a2 : 1 + t ≤ 3 := by linarith
        simp [lensPlanes, List.zipIdx, List.insertionSort, List.orderedInsert, a1, a2]
      have ht : 1 + t ≠ 0 := by linarith
      simp [mpRaytrace, mpHelper, ho, sheetPlane, mpLoop, mpBody, MPEnv.dist12, MPEnv.arcsecToRad, linEnv]
      field_simp
      ring
    · have : ContinuousAt (fun t : ℝ => 3 + 3 * t / (1 + t) - 3 / (1 + t) - 1 - t / (1 + t)) 0 := by
        have h : (1 : ℝ) + 0 ≠ 0 := by norm_num
        fun_prop (disch := simpa using h)
      have h := this.tendsto
      norm_num at h
      exact h

/-- Two sheets, the second at redshift `1 - t`. -/
def swapFamily : MPFamily ℝ 2 where
  consts := linEnv
  dist := fun _ z => z
  lens := ![fun _ => sheetPlane 1, fun t => sheetPlane (1 - t)]
  zs := fun _ => 4
  x := fun _ => 12
  y := fun _ => 0

/-- Nothing about the two sheets is discontinuous. -/
theorem swapFamily_cont (beta : ℝ → ℝ × ℝ) {p0 : ℝ} (h1 : -3 < p0) (h2 : p0 < 1) :
    swapFamily.ContAt p0 beta ∧ swapFamily.Inside p0 := by
  refine ⟨⟨?_, continuousAt_const, continuousAt_const, continuousAt_const, fun z _ => ?_, ?_⟩, ?_⟩
  · intro i
    fin_cases i
    · exact continuousAt_const
    · show ContinuousAt (fun t : ℝ => 1 - t) p0
      fun_prop
  · exact continuousAt_snd
  · intro i
    fin_cases i
    · show ContinuousAt (fun q : ℝ × ℝ × ℝ => (q.2.1, q.2.2)) _
      fun_prop
    · show ContinuousAt (fun q : ℝ × ℝ × ℝ => (q.2.1, q.2.2)) _
      fun_prop
  · refine ⟨?_, by norm_num [swapFamily], fun z hz => ne_of_gt hz⟩
    intro l hl
    simp only [MPFamily.list, List.mem_ofFn] at hl
    obtain ⟨i, rfl⟩ := hl
    fin_cases i
    · norm_num [swapFamily, sheetPlane]
    · exact ⟨show (0 : ℝ) < 1 - p0 by linarith, show 1 - p0 < 4 by linarith⟩

/-- C126 as stated does not hold for the code. -/
theorem C126_fails : ¬ C126_statement := by
  intro h
  obtain ⟨beta, hb⟩ := ray_exists (swapFamily.dist 0) (swapFamily.list 0) (swapFamily.x 0) (swapFamily.y 0)
  obtain ⟨hc, hi⟩ := swapFamily_cont beta (p0 := 0) (by norm_num) (by norm_num)
  obtain ⟨f, -, hf⟩ := h ℝ 2 swapFamily 0 beta (by norm_num) (by norm_num [swapFamily, linEnv]) (fun _ z hz => ne_of_gt hz)
    hi hb hc
  obtain ⟨t, ht, ht0⟩ := ((hf.filter_mono nhdsWithin_le_nhds).and (self_mem_nhdsWithin (s := Set.Ioi (0 : ℝ)))).exists
  have hn := C126_fails_raises linEnv 4 [] (sheetPlane 1) (sheetPlane 1) rfl 12 0 ht0
  have he : swapFamily.trace t = mpRaytrace linEnv 4 ([] ++ [sheetPlane 1, ⟨(sheetPlane 1).z - t, (sheetPlane 1).alpha,
      (sheetPlane 1).psi⟩]) 12 0 := by
    simp [MPFamily.trace, MPFamily.env, MPFamily.list, swapFamily, sheetPlane, linEnv]
  rw [he, hn] at ht
  exact absurd ht (by simp)

/-- The hypotheses of the theorems hold where the two sheets meet; the positive side is traced without an exception. -/
example : ∃ f : ℝ → ℝ × ℝ, ContinuousAt f 0 ∧
    ∀ᶠ t in 𝓝 0, SortedByZ (swapFamily.list t) → swapFamily.trace t = some (f t) := by
  obtain ⟨beta, hb⟩ := ray_exists (swapFamily.dist 0) (swapFamily.list 0) (swapFamily.x 0) (swapFamily.y 0)
  obtain ⟨hc, hi⟩ := swapFamily_cont beta (p0 := 0) (by norm_num) (by norm_num)
  obtain ⟨f, h1, h2, -⟩ := C126_in_order_partial swapFamily 0 beta (by norm_num) (by norm_num [swapFamily, linEnv])
    (fun _ z hz => ne_of_gt hz) hi hb hc
  exact ⟨f, h1, h2⟩

/-- The second sheet at redshift 2: the delay is continuous. -/
example : ∃ f : ℝ → ℝ, ContinuousAt f (-1) ∧ ∀ᶠ t in 𝓝 (-1),
    mpTimeDelay linEnv 4 true true (swapFamily.list t) 12 0 = some (f t) := by
  obtain ⟨beta, hb⟩ := ray_exists (swapFamily.dist (-1)) (swapFamily.list (-1)) (swapFamily.x (-1)) (swapFamily.y (-1))
  obtain ⟨hc, hi⟩ := swapFamily_cont beta (p0 := -1) (by norm_num) (by norm_num)
  refine C126_delay_partial swapFamily (-1) beta (by norm_num) (by norm_num [swapFamily, linEnv])
    (by norm_num [swapFamily, linEnv]) (fun _ z hz => ne_of_gt hz) (fun z z' _ h => ne_of_lt h) hi ?_ hb hc ?_ true true rfl
  · intro i j h
    fin_cases i <;> fin_cases j <;> first | exact absurd h (by decide) | norm_num [swapFamily, sheetPlane]
  · intro i
    fin_cases i <;> exact continuousAt_const

/-- Two softened isothermal spheres at one redshift, the Einstein radius of the first and the redshift of the second
free. -/
example : ∃ f : ℝ × ℝ → ℝ × ℝ, ContinuousAt f (1, 1) ∧ ∀ᶠ p in 𝓝 ((1 : ℝ), (1 : ℝ)),
    SortedByZ (List.ofFn fun i : Fin 2 => ThinLensFn.plane linEnv 4
      ⟨![1, p.2] i, sisDeflection 0 0 (![p.1, 1] i) 1, sisPotential 0 0 (![p.1, 1] i) 1⟩) →
    mpRaytrace linEnv 4 (List.ofFn fun i : Fin 2 => ThinLensFn.plane linEnv 4
      ⟨![1, p.2] i, sisDeflection 0 0 (![p.1, 1] i) 1, sisPotential 0 0 (![p.1, 1] i) 1⟩) 3 0 = some (f p) := by
  obtain ⟨beta, hb⟩ := ray_exists linEnv.dist (List.ofFn fun i : Fin 2 => ThinLensFn.plane linEnv 4
      ⟨![1, 1] i, sisDeflection 0 0 (![1, 1] i) 1, sisPotential 0 0 (![1, 1] i) 1⟩) 3 0
  refine C126_sis_partial (P := ℝ × ℝ) linEnv (fun _ z => z) (fun i p => ![1, p.2] i) (fun _ _ => 0) (fun _ _ => 0)
    (fun i p => ![p.1, 1] i) 1 (fun _ => 4) (fun _ => 3) (fun _ => 0) (1, 1) (by norm_num) (by norm_num [linEnv])
    (fun _ z hz => ne_of_gt hz) (fun z _ => continuousAt_snd) ?_ (fun _ => continuousAt_const) (fun _ => continuousAt_const)
    ?_ continuousAt_const continuousAt_const continuousAt_const (by norm_num) ?_ beta _ rfl hb fun i => ?_
  · intro i
    fin_cases i
    · exact continuousAt_const
    · exact continuousAt_snd
  · intro i
    fin_cases i
    · exact continuousAt_fst
    · exact continuousAt_const
  · intro i
    fin_cases i <;> norm_num
  · positivity

end Caustics

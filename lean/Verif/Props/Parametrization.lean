import Verif.Model.Parametrization

/-! C70, C71: switching `parametrization` on `ExternalShear`, `Point` and `SIE`. -/

namespace Caustics

/-! ### ExternalShear -/

/-- The exact shape of every reachable `ExternalShear`. -/
private def ShearInv (s : ParObj) : Prop :=
  (s.par = "cartesian" ∧ s.attrs = [] ∧ (s.nodes "gamma_1").links = [] ∧
    (s.nodes "gamma_2").links = [] ∧ (s.nodes "gamma_1").kind ≠ .computed ∧
    (s.nodes "gamma_2").kind ≠ .computed) ∨
  (s.par = "angular" ∧ ∃ a b, a ≠ b ∧ s.attrs = [("phi", b), ("gamma", a)] ∧
    s.nodes "gamma_1" = ⟨.computed, [("phi", b), ("gamma", a)]⟩ ∧
    s.nodes "gamma_2" = ⟨.computed, [("phi", b), ("gamma", a)]⟩)

private theorem parInitKind_ne (v : Option ℝ) : parInitKind v ≠ .computed := by
  cases v <;> simp [parInitKind]

private theorem shearInv_init (g1 g2 : Option ℝ) : ShearInv (shearInit g1 g2) := by
  left
  simp [shearInit, parInitKind_ne]

private theorem shearToAngular_ok (pol : LinkPolicy) (s : ParObj) (h : ShearInv s)
    (hs : s.par ≠ "angular") :
    ∃ s', shearToAngular pol s = (s', none) ∧ s'.attrs = [("phi", s.next + 1), ("gamma", s.next)] ∧
      s'.nodes "gamma_1" = ⟨.computed, [("phi", s.next + 1), ("gamma", s.next)]⟩ ∧
      s'.nodes "gamma_2" = ⟨.computed, [("phi", s.next + 1), ("gamma", s.next)]⟩ ∧
      s'.vals s.next = .free ∧ s'.vals (s.next + 1) = .free := by
  rcases h with ⟨_, ha, h1, h2, _, _⟩ | ⟨h, _⟩
  · refine ⟨_, by
      simp [shearToAngular, parSeq, parCreate, parLinkKey, ha, parSetKind, parLink,
        Function.update, List.lookup, h1, h2]
      rfl, ?_⟩
    simp
  · exact absurd h hs

private theorem shearToCartesian_ok (s : ParObj) (h : ShearInv s) (hs : s.par ≠ "cartesian") :
    ∃ s', shearToCartesian s = (s', none) ∧ s'.attrs = [] ∧
      s'.nodes "gamma_1" = ⟨.free, []⟩ ∧ s'.nodes "gamma_2" = ⟨.free, []⟩ := by
  rcases h with ⟨h, _⟩ | ⟨_, a, b, hab, ha, h1, h2⟩
  · exact absurd h hs
  · refine ⟨_, by
      simp [shearToCartesian, parSeq, parTry, parRead, parUnlink, parDelete, ha, parSetKind,
        Function.update, List.lookup, h1, h2, hab, hab.symm]
      rfl, ?_⟩
    simp

/-- What one assignment of `parametrization` does in a reachable state. -/
private theorem shearSet_cases (pol : LinkPolicy) (v : String) (s : ParObj) (h : ShearInv s) :
    (v ∉ ["cartesian", "angular"] ∧ shearSetPar pol v s = (s, some .value)) ∨
    (v ∈ ["cartesian", "angular"] ∧ s.par = v ∧ shearSetPar pol v s = (s, none)) ∨
    (v = "angular" ∧ s.par = "cartesian" ∧ ∃ s', shearSetPar pol v s = (s', none) ∧ ShearInv s' ∧
      s'.par = "angular" ∧ ∀ e ∈ s'.attrs, s'.vals e.2 = .free) ∨
    (v = "cartesian" ∧ s.par = "angular" ∧ ∃ s', shearSetPar pol v s = (s', none) ∧ ShearInv s' ∧
      s'.par = "cartesian" ∧ s'.nodes "gamma_1" = ⟨.free, []⟩ ∧
      s'.nodes "gamma_2" = ⟨.free, []⟩) := by
  have hpar : s.par = "cartesian" ∨ s.par = "angular" := by
    rcases h with h | h
    · exact Or.inl h.1
    · exact Or.inr h.1
  by_cases hv : v ∈ ["cartesian", "angular"]
  · have hv' := hv
    simp only [List.mem_cons, List.not_mem_nil, or_false] at hv'
    rcases hv' with rfl | rfl <;> rcases hpar with hp | hp
    · refine Or.inr (Or.inl ⟨hv, hp, ?_⟩)
      simp [shearSetPar, hp, parName]
      cases s; simp_all
    · refine Or.inr (Or.inr (Or.inr ⟨rfl, hp, ?_⟩))
      obtain ⟨s', e, ha, h1, h2⟩ := shearToCartesian_ok s h (by rw [hp]; decide)
      refine ⟨{ s' with par := "cartesian" }, ?_, ?_, rfl, h1, h2⟩
      · simp [shearSetPar, hp, parSeq, e, parName]
      · left
        simp [ha, h1, h2]
    · refine Or.inr (Or.inr (Or.inl ⟨rfl, hp, ?_⟩))
      obtain ⟨s', e, ha, h1, h2, v1, v2⟩ := shearToAngular_ok pol s h (by rw [hp]; decide)
      refine ⟨{ s' with par := "angular" }, ?_, ?_, rfl, ?_⟩
      · simp [shearSetPar, hp, parSeq, e, parName]
      · right
        exact ⟨rfl, s.next, s.next + 1, by omega, ha, h1, h2⟩
      · simp [ha, v1, v2]
    · refine Or.inr (Or.inl ⟨hv, hp, ?_⟩)
      simp [shearSetPar, hp, parName]
      cases s; simp_all
  · exact Or.inl ⟨hv, by simp only [shearSetPar]; rw [if_pos hv]⟩

private theorem shearInv_step (pol : LinkPolicy) (s : ParObj) (h : ShearInv s) (op : ParOp) :
    ShearInv (parStep (shearSetPar pol) s op).1 := by
  cases op with
  | setPar v =>
    simp only [parStep]
    rcases shearSet_cases pol v s h with ⟨_, e⟩ | ⟨_, _, e⟩ | ⟨_, _, s', e, hi, _⟩ |
      ⟨_, _, s', e, hi, _⟩
    · rw [e]; exact h
    · rw [e]; exact h
    · rw [e]; exact hi
    · rw [e]; exact hi
  | assignNode n v =>
    simp only [parStep]
    split_ifs with hc
    · exact h
    · rcases h with ⟨hp, ha, h1, h2, k1, k2⟩ | ⟨hp, a, b, hab, ha, h1, h2⟩
      · left
        refine ⟨hp, ha, ?_, ?_, ?_, ?_⟩ <;> simp only [parSetKind, Function.update] <;> split_ifs with hn <;>
          simp_all [parInitKind_ne]
      · right
        refine ⟨hp, a, b, hab, ha, ?_, ?_⟩ <;> simp only [parSetKind, Function.update] <;>
          split_ifs with hn <;> simp_all
  | assignAttr p v =>
    simp only [parStep]
    split
    · exact h
    · exact h

private theorem shearInv_run (pol : LinkPolicy) (g1 g2 : Option ℝ) (ops : List ParOp) :
    ShearInv (parRun (shearSetPar pol) (shearInit g1 g2) ops) := by
  have : ∀ (ops : List ParOp) (s : ParObj), ShearInv s → ShearInv (parRun (shearSetPar pol) s ops) := by
    intro ops
    induction ops with
    | nil => exact fun s h => h
    | cons o os ih => exact fun s h => ih _ (shearInv_step pol s h o)
  exact this ops _ (shearInv_init g1 g2)

/-- After any history of assignments the lens has parameters `gamma` and `phi` exactly when its
parametrization is "angular", and nothing else. -/
theorem C70_attributes (pol : LinkPolicy) (g1 g2 : Option ℝ) (ops : List ParOp) :
    let s := parRun (shearSetPar pol) (shearInit g1 g2) ops
    (s.par = "cartesian" ∧ s.attrs = []) ∨
    (s.par = "angular" ∧ s.attrs.length = 2 ∧
      ∃ a b, a ≠ b ∧ s.attrs.lookup "gamma" = some a ∧ s.attrs.lookup "phi" = some b) := by
  intro s
  rcases shearInv_run pol g1 g2 ops with ⟨h, ha, _⟩ | ⟨h, a, b, hab, ha, _⟩
  · exact Or.inl ⟨h, ha⟩
  · refine Or.inr ⟨h, ?_⟩
    have ha' : s.attrs = _ := ha
    rw [ha']
    exact ⟨rfl, a, b, hab, by simp [List.lookup], by simp [List.lookup]⟩

/-- `gamma_1` and `gamma_2` depend on exactly the parameters the lens has now: no link is missing
and none to a deleted parameter remains. -/
theorem C70_links (pol : LinkPolicy) (g1 g2 : Option ℝ) (ops : List ParOp) :
    let s := parRun (shearSetPar pol) (shearInit g1 g2) ops
    ∀ n ∈ ["gamma_1", "gamma_2"], ∀ e, e ∈ (s.nodes n).links ↔ e ∈ s.attrs := by
  intro s n hn e
  have hn' : n = "gamma_1" ∨ n = "gamma_2" := by simpa using hn
  rcases shearInv_run pol g1 g2 ops with ⟨h, ha, h1, h2, _⟩ | ⟨h, a, b, hab, ha, h1, h2⟩
  · have ha' : s.attrs = _ := ha
    have h1' : (s.nodes "gamma_1").links = _ := h1
    have h2' : (s.nodes "gamma_2").links = _ := h2
    rcases hn' with rfl | rfl <;> simp [ha', h1', h2']
  · have ha' : s.attrs = _ := ha
    have h1' : s.nodes "gamma_1" = _ := h1
    have h2' : s.nodes "gamma_2" = _ := h2
    rcases hn' with rfl | rfl <;> rw [ha']
    · rw [h1']
    · rw [h2']

/-- In any reachable state an accepted name never raises and takes effect; a name already in
effect changes nothing; any other name raises ValueError and changes nothing. -/
theorem C70_assign (pol : LinkPolicy) (g1 g2 : Option ℝ) (ops : List ParOp) (v : String) :
    let s := parRun (shearSetPar pol) (shearInit g1 g2) ops
    (v ∈ ["cartesian", "angular"] →
      (shearSetPar pol v s).2 = none ∧ (shearSetPar pol v s).1.par = v) ∧
    (s.par = v → (shearSetPar pol v s) = (s, none)) ∧
    (v ∉ ["cartesian", "angular"] → shearSetPar pol v s = (s, some .value)) := by
  intro s
  have hi : ShearInv s := shearInv_run pol g1 g2 ops
  have hp : s.par ∈ ["cartesian", "angular"] := by
    rcases hi with h | h
    · rw [h.1]; simp
    · rw [h.1]; simp
  rcases shearSet_cases pol v s hi with ⟨hv, e⟩ | ⟨hv, hs, e⟩ | ⟨hv, hs, s', e, _, hp', _⟩ |
    ⟨hv, hs, s', e, _, hp', _⟩
  · exact ⟨fun h => absurd h hv, fun h => absurd (h ▸ hp) hv, fun _ => e⟩
  · exact ⟨fun _ => by rw [e]; exact ⟨rfl, hs⟩, fun _ => e, fun h => absurd hv h⟩
  · refine ⟨fun _ => by rw [e]; exact ⟨rfl, by rw [hp', hv]⟩, fun h => ?_, fun h => ?_⟩
    · rw [hs, hv] at h; simp at h
    · rw [hv] at h; simp at h
  · refine ⟨fun _ => by rw [e]; exact ⟨rfl, by rw [hp', hv]⟩, fun h => ?_, fun h => ?_⟩
    · rw [hs, hv] at h; simp at h
    · rw [hv] at h; simp at h

/-- In the angular parametrization the shear the lens uses is `gamma (cos 2phi, sin 2phi)` of its
*current* parameters `gamma` and `phi`, whatever happened before. -/
theorem C70_angular_value (pol : LinkPolicy) (g1 g2 : Option ℝ) (ops : List ParOp)
    (env : ℕ → ℝ) (own1 own2 : ℝ)
    (ha : (parRun (shearSetPar pol) (shearInit g1 g2) ops).par = "angular") :
    let s := parRun (shearSetPar pol) (shearInit g1 g2) ops
    ∃ a b, s.attrs.lookup "gamma" = some a ∧ s.attrs.lookup "phi" = some b ∧
      shearGamma1 s env own1 = some (parVal s env a * Real.cos (2 * parVal s env b)) ∧
      shearGamma2 s env own2 = some (parVal s env a * Real.sin (2 * parVal s env b)) := by
  intro s
  rcases shearInv_run pol g1 g2 ops with ⟨h, _⟩ | ⟨_, a, b, hab, ha, h1, h2⟩
  · rw [h] at ha; simp at ha
  · have ha' : s.attrs = _ := ha
    have h1' : s.nodes "gamma_1" = _ := h1
    have h2' : s.nodes "gamma_2" = _ := h2
    refine ⟨a, b, by rw [ha']; simp [List.lookup], by rw [ha']; simp [List.lookup], ?_, ?_⟩
    · simp [shearGamma1, parNodeValue, parArg, h1', List.lookup, gammaPhiToGamma1]
    · simp [shearGamma2, parNodeValue, parArg, h2', List.lookup, gammaPhiToGamma2]

/-- Switching to "angular" starts from free `gamma` and `phi`: the shear is the one of the values
then supplied, however `gamma_1` and `gamma_2` were set before. -/
theorem C70_switch_angular (pol : LinkPolicy) (g1 g2 : Option ℝ) (ops : List ParOp)
    (env : ℕ → ℝ) (own1 own2 : ℝ)
    (hc : (parRun (shearSetPar pol) (shearInit g1 g2) ops).par = "cartesian") :
    let s := (shearSetPar pol "angular" (parRun (shearSetPar pol) (shearInit g1 g2) ops)).1
    ∃ a b, s.attrs.lookup "gamma" = some a ∧ s.attrs.lookup "phi" = some b ∧
      shearGamma1 s env own1 = some (env a * Real.cos (2 * env b)) ∧
      shearGamma2 s env own2 = some (env a * Real.sin (2 * env b)) := by
  intro s
  have hi : ShearInv s := shearInv_step pol _ (shearInv_run pol g1 g2 ops) (.setPar "angular")
  have hfree : s.par = "angular" ∧ ∀ e ∈ s.attrs, s.vals e.2 = .free := by
    rcases shearSet_cases pol "angular" _ (shearInv_run pol g1 g2 ops) with ⟨hv, e⟩ | ⟨_, hs, e⟩ |
      ⟨_, _, s', e, _, hp, hf⟩ | ⟨hv, _⟩
    · simp at hv
    · rw [hc] at hs; simp at hs
    · have : s = s' := by simp only [s, e]
      rw [this]; exact ⟨hp, hf⟩
    · simp at hv
  rcases hi with ⟨h, _⟩ | ⟨_, a, b, hab, ha, h1, h2⟩
  · rw [hfree.1] at h; simp at h
  · have va : s.vals a = .free := hfree.2 ("gamma", a) (by rw [ha]; simp)
    have vb : s.vals b = .free := hfree.2 ("phi", b) (by rw [ha]; simp)
    refine ⟨a, b, by rw [ha]; simp [List.lookup], by rw [ha]; simp [List.lookup], ?_, ?_⟩
    · simp [shearGamma1, parNodeValue, parArg, h1, List.lookup, gammaPhiToGamma1, parVal, va, vb]
    · simp [shearGamma2, parNodeValue, parArg, h2, List.lookup, gammaPhiToGamma2, parVal, va, vb]

/-- Switching back leaves `gamma_1`, `gamma_2` free, and in "cartesian" they never depend on
anything but their own value. -/
theorem C70_cartesian_value (pol : LinkPolicy) (g1 g2 : Option ℝ) (ops : List ParOp)
    (env env' : ℕ → ℝ) (own1 own2 : ℝ) :
    let s := parRun (shearSetPar pol) (shearInit g1 g2) ops
    (s.par = "cartesian" →
      shearGamma1 s env own1 = shearGamma1 s env' own1 ∧ (shearGamma1 s env own1).isSome ∧
      shearGamma2 s env own2 = shearGamma2 s env' own2 ∧ (shearGamma2 s env own2).isSome) ∧
    (s.par = "angular" →
      shearGamma1 (shearSetPar pol "cartesian" s).1 env own1 = some own1 ∧
      shearGamma2 (shearSetPar pol "cartesian" s).1 env own2 = some own2) := by
  intro s
  have hi : ShearInv s := shearInv_run pol g1 g2 ops
  constructor
  · intro hp
    rcases hi with ⟨_, _, _, _, k1, k2⟩ | ⟨h, _⟩
    · refine ⟨?_, ?_, ?_, ?_⟩
      · simp only [shearGamma1, parNodeValue]; split <;> simp_all
      · simp only [shearGamma1, parNodeValue]; split <;> simp_all
      · simp only [shearGamma2, parNodeValue]; split <;> simp_all
      · simp only [shearGamma2, parNodeValue]; split <;> simp_all
    · rw [hp] at h; simp at h
  · intro hp
    rcases shearSet_cases pol "cartesian" s hi with ⟨hv, e⟩ | ⟨_, hs, e⟩ | ⟨hv, _⟩ |
      ⟨_, _, s', e, _, _, n1, n2⟩
    · simp at hv
    · rw [hp] at hs; simp at hs
    · simp at hv
    · rw [e]
      simp [shearGamma1, shearGamma2, parNodeValue, n1, n2]

/-- The numbers a user supplies are the ones used: those given to the constructor, those assigned to `gamma_1` and
`gamma_2` in the system "cartesian", and those assigned to `gamma` and `phi` in the system "angular", whatever was done
before. -/
theorem C70_assigned (pol : LinkPolicy) (g1 g2 : Option ℝ) (ops : List ParOp) (env : ℕ → ℝ) (own1 own2 a b : ℝ) :
    (shearGamma1 (shearInit (some a) g2) env own1 = some a ∧ shearGamma2 (shearInit g1 (some b)) env own2 = some b) ∧
    (∀ s, s = parRun (shearSetPar pol) (shearInit g1 g2)
        (ops ++ [.assignNode "gamma_1" (some a), .assignNode "gamma_2" (some b)]) →
      s.par = "cartesian" → shearGamma1 s env own1 = some a ∧ shearGamma2 s env own2 = some b) ∧
    (∀ s, s = parRun (shearSetPar pol) (shearInit g1 g2)
        (ops ++ [.assignAttr "gamma" (some a), .assignAttr "phi" (some b)]) →
      s.par = "angular" → shearGamma1 s env own1 = some (a * Real.cos (2 * b)) ∧
        shearGamma2 s env own2 = some (a * Real.sin (2 * b))) := by
  refine ⟨by simp [shearGamma1, shearGamma2, parNodeValue, shearInit, parInitKind], ?_, ?_⟩
  · have hi := shearInv_run pol g1 g2 ops
    rw [show ∀ l, parRun (shearSetPar pol) (shearInit g1 g2) (ops ++ l) = parRun (shearSetPar pol)
      (parRun (shearSetPar pol) (shearInit g1 g2) ops) l from fun l => by simp [parRun, List.foldl_append]]
    generalize parRun (shearSetPar pol) (shearInit g1 g2) ops = s at hi
    rcases hi with ⟨h, _, _, _, k1, k2⟩ | ⟨h, c, d, _, _, n1, n2⟩
    · rintro _ rfl -
      simp [parRun, parStep, k1, k2, parSetKind, Function.update, shearGamma1, shearGamma2, parNodeValue, parInitKind]
    · rintro _ rfl hp
      simp [parRun, parStep, n1, n2, h] at hp
  · have hi := shearInv_run pol g1 g2 ops
    rw [show ∀ l, parRun (shearSetPar pol) (shearInit g1 g2) (ops ++ l) = parRun (shearSetPar pol)
      (parRun (shearSetPar pol) (shearInit g1 g2) ops) l from fun l => by simp [parRun, List.foldl_append]]
    generalize parRun (shearSetPar pol) (shearInit g1 g2) ops = s at hi
    rcases hi with ⟨h, ha, _⟩ | ⟨h, c, d, hcd, ha, n1, n2⟩
    · rintro _ rfl hp
      simp [parRun, parStep, ha, h, List.lookup] at hp
    · rintro _ rfl -
      simp [parRun, parStep, ha, List.lookup, Function.update, shearGamma1, shearGamma2, parNodeValue, parArg, n1, n2, parVal,
        parInitKind, hcd, gammaPhiToGamma1, gammaPhiToGamma2]

/-- A history with every kind of step: values assigned, two round trips, a rejected name. -/
example (pol : LinkPolicy) (env : ℕ → ℝ) :
    let s := parRun (shearSetPar pol) (shearInit (some 0.1) none)
      [.setPar "angular", .assignAttr "gamma" (some 3), .setPar "cartesian", .setPar "weird",
       .assignNode "gamma_2" (some 5), .setPar "angular", .assignAttr "gamma" (some 2)]
    s.par = "angular" ∧ s.attrs = [("phi", 3), ("gamma", 2)] ∧
      shearGamma1 s env 7 = some (2 * Real.cos (2 * env 3)) := by
  cases pol <;>
  simp [parRun, parStep, shearSetPar, parSeq, shearToAngular, shearToCartesian, parCreate,
    parLinkKey, List.lookup, shearInit, parSetKind, parLink, parTry, parRead, parUnlink, parDelete,
    parName, Function.update, parInitKind, shearGamma1, parNodeValue, parArg, gammaPhiToGamma1,
    parVal]

/-! ### Point and SIE -/

private abbrev radBase : List (String × ℕ) := [("z_s", 0), ("z_l", 1), ("cosmology", 2)]

private abbrev radLinks (nm : RadNames) (a : ℕ) : List (String × ℕ) :=
  [("cosmology", 2), ("z_l", 1), ("z_s", 0), (nm.param, a)]

/-- States in the parametrization by another quantity. -/
private def RadOther (nm : RadNames) (s : ParObj) : Prop :=
  s.par = nm.par ∧ ∃ a, s.attrs = (nm.param, a) :: radBase ∧
    s.nodes "Rein" = ⟨.computed, radLinks nm a⟩

/-- `ExternalShear`-like tidy states with `Rein` an ordinary parameter. -/
private def RadFresh (s : ParObj) : Prop :=
  s.par = "Rein" ∧ s.attrs = radBase ∧ (s.nodes "Rein").links = [] ∧
    (s.nodes "Rein").kind ≠ .computed

/-- States after coming back: as before, but with the old links. -/
private def RadUsed (nm : RadNames) (s : ParObj) : Prop :=
  s.par = "Rein" ∧ s.attrs = radBase ∧ (∃ a, (s.nodes "Rein").links = radLinks nm a) ∧
    (s.nodes "Rein").kind ≠ .computed

private theorem radFresh_init (rein zs zl : Option ℝ) : RadFresh (radInit rein zs zl) := by
  simp [RadFresh, radInit, parInitKind_ne]

private theorem radToOther_fresh (pol : LinkPolicy) (nm : RadNames)
    (hnm : nm = pointNames ∨ nm = sieNames) (s : ParObj) (h : RadFresh s) :
    ∃ s', radSetPar pol nm nm.par s = (s', none) ∧ RadOther nm s' ∧
      s'.attrs.lookup nm.param = some s.next ∧ s'.vals s.next = .free := by
  obtain ⟨hp, ha, hl, _⟩ := h
  rcases hnm with rfl | rfl <;>
  · refine ⟨_, by
      simp [radSetPar, hp, parSeq, radToOther, parCreate, parLinkKey, ha, List.lookup, parSetKind,
        parLink, Function.update, hl, parName, pointNames, sieNames]
      rfl, ⟨rfl, s.next, ?_⟩, ?_, ?_⟩ <;> simp [pointNames, sieNames]

private theorem radToOther_used (nm : RadNames)
    (hnm : nm = pointNames ∨ nm = sieNames) (s : ParObj) (h : RadUsed nm s) :
    ∃ s', radSetPar .replace nm nm.par s = (s', none) ∧ RadOther nm s' ∧
      s'.attrs.lookup nm.param = some s.next ∧ s'.vals s.next = .free := by
  obtain ⟨hp, ha, ⟨a, hl⟩, _⟩ := h
  rcases hnm with rfl | rfl <;>
  · refine ⟨_, by
      simp [radSetPar, hp, parSeq, radToOther, parCreate, parLinkKey, ha, List.lookup, parSetKind,
        parLink, Function.update, hl, parName, pointNames, sieNames]
      rfl, ⟨rfl, s.next, ?_⟩, ?_, ?_⟩ <;> simp [pointNames, sieNames]

private theorem radToRein_ok (pol : LinkPolicy) (nm : RadNames)
    (hnm : nm = pointNames ∨ nm = sieNames) (s : ParObj) (h : RadOther nm s) :
    ∃ s', radSetPar pol nm "Rein" s = (s', none) ∧ RadUsed nm s' ∧
      (s'.nodes "Rein") = ⟨.free, (s.nodes "Rein").links⟩ ∧ s'.vals = s.vals := by
  obtain ⟨hp, a, ha, hl⟩ := h
  rcases hnm with rfl | rfl <;>
  · refine ⟨_, by
      simp [radSetPar, hp, parSeq, radToRein, ha, List.lookup, parSetKind, parTry, parRead,
        parDelete, Function.update, hl, parName, pointNames, sieNames]
      rfl, ⟨rfl, ?_, ⟨a, ?_⟩, ?_⟩, ?_, ?_⟩ <;> simp [hl, pointNames, sieNames]

private theorem radSet_same (pol : LinkPolicy) (nm : RadNames) (s : ParObj)
    (h : s.par ∈ ["Rein", nm.par]) : radSetPar pol nm s.par s = (s, none) := by
  simp only [radSetPar, parName]
  rw [if_neg (not_not.mpr h), if_neg (fun h => h.2 h.1), if_neg (fun h => h.2 h.1)]

private theorem radSet_bad (pol : LinkPolicy) (nm : RadNames) (s : ParObj) (v : String)
    (h : v ∉ ["Rein", nm.par]) : radSetPar pol nm v s = (s, some .value) := by
  simp only [radSetPar]
  rw [if_pos h]

private theorem radNames_ne (nm : RadNames) (hnm : nm = pointNames ∨ nm = sieNames) :
    nm.par ≠ "Rein" := by
  rcases hnm with rfl | rfl <;> decide

/-- Assignments of values keep each of the three classes of states. -/
private theorem rad_assignNode (set : String → ParStmt) (nm : RadNames) (s : ParObj) (n : String)
    (v : Option ℝ) :
    (RadFresh s → RadFresh (parStep set s (.assignNode n v)).1) ∧
    (RadUsed nm s → RadUsed nm (parStep set s (.assignNode n v)).1) ∧
    (RadOther nm s → RadOther nm (parStep set s (.assignNode n v)).1) := by
  simp only [parStep]
  split_ifs with hc
  · exact ⟨id, id, id⟩
  · refine ⟨fun ⟨h1, h2, h3, h4⟩ => ⟨h1, h2, ?_, ?_⟩, fun ⟨h1, h2, ⟨a, h3⟩, h4⟩ => ⟨h1, h2, ⟨a, ?_⟩, ?_⟩,
      fun ⟨h1, a, h2, h3⟩ => ⟨h1, a, h2, ?_⟩⟩ <;>
      simp only [parSetKind, Function.update] <;> split_ifs with hn <;>
      simp_all [parInitKind_ne]

private theorem rad_assignAttr (set : String → ParStmt) (nm : RadNames) (s : ParObj) (p : String)
    (v : Option ℝ) :
    (RadFresh s → RadFresh (parStep set s (.assignAttr p v)).1) ∧
    (RadUsed nm s → RadUsed nm (parStep set s (.assignAttr p v)).1) ∧
    (RadOther nm s → RadOther nm (parStep set s (.assignAttr p v)).1) := by
  simp only [parStep]
  split
  · exact ⟨id, id, id⟩
  · exact ⟨id, id, id⟩

/-- Reachable states of a lens when `link` replaces. -/
private def RadInv (nm : RadNames) (s : ParObj) : Prop := RadFresh s ∨ RadUsed nm s ∨ RadOther nm s

private theorem radInv_step (nm : RadNames) (hnm : nm = pointNames ∨ nm = sieNames) (s : ParObj)
    (h : RadInv nm s) (op : ParOp) : RadInv nm (parStep (radSetPar .replace nm) s op).1 := by
  cases op with
  | assignNode n v =>
    obtain ⟨h1, h2, h3⟩ := rad_assignNode (radSetPar .replace nm) nm s n v
    exact h.imp h1 (Or.imp h2 h3)
  | assignAttr p v =>
    obtain ⟨h1, h2, h3⟩ := rad_assignAttr (radSetPar .replace nm) nm s p v
    exact h.imp h1 (Or.imp h2 h3)
  | setPar v =>
    simp only [parStep]
    by_cases hv : v ∈ ["Rein", nm.par]
    · by_cases hs : s.par = v
      · subst hs
        rw [radSet_same _ nm s hv]; exact h
      · simp only [List.mem_cons, List.not_mem_nil, or_false] at hv
        rcases hv with rfl | rfl
        · rcases h with h | h | h
          · exact absurd h.1 hs
          · exact absurd h.1 hs
          · obtain ⟨s', e, hu, _⟩ := radToRein_ok .replace nm hnm s h
            rw [e]; exact Or.inr (Or.inl hu)
        · rcases h with h | h | h
          · obtain ⟨s', e, ho, _⟩ := radToOther_fresh .replace nm hnm s h
            rw [e]; exact Or.inr (Or.inr ho)
          · obtain ⟨s', e, ho, _⟩ := radToOther_used nm hnm s h
            rw [e]; exact Or.inr (Or.inr ho)
          · exact absurd h.1 hs
    · rw [radSet_bad _ nm s v hv]; exact h

private theorem radInv_run (nm : RadNames) (hnm : nm = pointNames ∨ nm = sieNames)
    (rein zs zl : Option ℝ) (ops : List ParOp) :
    RadInv nm (parRun (radSetPar .replace nm) (radInit rein zs zl) ops) := by
  have : ∀ (ops : List ParOp) (s : ParObj), RadInv nm s →
      RadInv nm (parRun (radSetPar .replace nm) s ops) := by
    intro ops
    induction ops with
    | nil => exact fun s h => h
    | cons o os ih => exact fun s h => ih _ (radInv_step nm hnm s h o)
  exact this ops _ (Or.inl (radFresh_init rein zs zl))

/-- The full property: after any history `Rein` depends only on parameters the lens has. -/
def C71_statement (pol : LinkPolicy) (nm : RadNames) : Prop :=
  ∀ (rein zs zl : Option ℝ) (ops : List ParOp),
    let s := parRun (radSetPar pol nm) (radInit rein zs zl) ops
    ∀ e ∈ (s.nodes "Rein").links, e ∈ s.attrs

/-- `radRein` in the other parametrization. -/
private theorem radRein_other (nm : RadNames) (hnm : nm = pointNames ∨ nm = sieNames)
    (conv : ℝ → ℝ → ℝ → ℝ) (s : ParObj) (h : RadOther nm s) (env : ℕ → ℝ) (own : ℝ) :
    ∃ a, s.attrs.lookup nm.param = some a ∧
      radRein nm conv s env own = some (conv (parVal s env a) (parVal s env 1) (parVal s env 0)) := by
  obtain ⟨_, a, ha, hl⟩ := h
  refine ⟨a, ?_, ?_⟩
  · rw [ha]; simp [List.lookup]
  · rcases hnm with rfl | rfl <;>
      simp [radRein, parNodeValue, hl, parArg, List.lookup, pointNames, sieNames]

/-- Coming back to `Rein` leaves the lens with a link to the parameter just deleted; it is still a
free parameter (of a lens that no longer shows it) unless it had been given a value. -/
theorem C71_dangling (pol : LinkPolicy) (nm : RadNames) (hnm : nm = pointNames ∨ nm = sieNames)
    (rein zs zl : Option ℝ) :
    let s := parRun (radSetPar pol nm) (radInit rein zs zl) [.setPar nm.par, .setPar "Rein"]
    s.par = "Rein" ∧ s.attrs.lookup nm.param = none ∧
      ∃ a, (nm.param, a) ∈ (s.nodes "Rein").links ∧ (nm.param, a) ∉ s.attrs ∧ s.vals a = .free := by
  intro s
  obtain ⟨s1, e1, ho, hat, hv⟩ := radToOther_fresh pol nm hnm _ (radFresh_init rein zs zl)
  obtain ⟨s2, e2, hu, hn, hvals⟩ := radToRein_ok pol nm hnm s1 ho
  have hs : s = s2 := by
    simp only [s, parRun, List.foldl, parStep, e1, e2]
  rw [hs]
  obtain ⟨hp, ha, _, _⟩ := hu
  obtain ⟨_, a, ha1, hl1⟩ := ho
  have haa : a = (radInit rein zs zl).next := by
    rw [ha1] at hat; simpa [List.lookup] using hat
  refine ⟨hp, ?_, a, ?_, ?_, ?_⟩
  · rw [ha]; rcases hnm with rfl | rfl <;> simp [List.lookup, pointNames, sieNames]
  · rw [hn, hl1]; simp
  · rw [ha]; rcases hnm with rfl | rfl <;> simp [pointNames, sieNames]
  · rw [hvals, haa]; exact hv

/-- So the property fails for both classes, whatever `link` does on a name clash. -/
theorem C71_fails (pol : LinkPolicy) (nm : RadNames) (hnm : nm = pointNames ∨ nm = sieNames) :
    ¬ C71_statement pol nm := by
  intro h
  obtain ⟨_, _, a, hm, hn, _⟩ := C71_dangling pol nm hnm none none none
  exact hn (h none none none _ _ hm)

/-- If `link` refuses a second child of the same name, the second switch raises half way: the lens
reports "Rein" while `Rein` is computed from the deleted parameter, and every later assignment of
`parametrization` leaves it so. -/
theorem C71_refused (nm : RadNames) (hnm : nm = pointNames ∨ nm = sieNames)
    (rein zs zl : Option ℝ) (vs : List String) :
    let s := parRun (radSetPar .refuse nm) (radInit rein zs zl) [.setPar nm.par, .setPar "Rein"]
    let t := parRun (radSetPar .refuse nm) s (.setPar nm.par :: vs.map .setPar)
    (radSetPar .refuse nm nm.par s).2 = some .graph ∧
    t.par = "Rein" ∧ (t.nodes "Rein").kind = .computed ∧
      ∃ a b, (t.nodes "Rein").links.lookup nm.param = some a ∧
        t.attrs.lookup nm.param = some b ∧ a ≠ b := by
  intro s t
  have hs : ∃ r : ParObj, s = r ∧ r.par = "Rein" ∧ r.attrs = radBase ∧ r.next = 4 ∧
      (r.nodes "Rein").links = radLinks nm 3 := by
    refine ⟨s, rfl, ?_⟩
    rcases hnm with rfl | rfl <;>
    simp [s, parRun, parStep, radSetPar, parSeq, radToOther, radToRein, parCreate, parLinkKey,
      radInit, List.lookup, parSetKind, parLink, Function.update, parName, pointNames, sieNames,
      parTry, parRead, parDelete]
  obtain ⟨r, hsr, hp, ha, hx, hl⟩ := hs
  have key : ∃ u : ParObj, radSetPar .refuse nm nm.par s = (u, some .graph) ∧ u.par = "Rein" ∧
      u.attrs = (nm.param, 4) :: radBase ∧ u.nodes "Rein" = ⟨.computed, radLinks nm 3⟩ := by
    rw [hsr]
    rcases hnm with rfl | rfl <;>
    · refine ⟨_, by
        simp [radSetPar, hp, parSeq, radToOther, parCreate, parLinkKey, ha, List.lookup, parSetKind,
          parLink, Function.update, hl, pointNames, sieNames]
        rfl, ?_, ?_, ?_⟩ <;> simp [hp, hx, hl, pointNames, sieNames]
  obtain ⟨u, hu, up, ua, un⟩ := key
  have stuck : ∀ v, (radSetPar .refuse nm v u).1 = u := by
    intro v
    by_cases hv : v ∈ ["Rein", nm.par]
    · simp only [List.mem_cons, List.not_mem_nil, or_false] at hv
      rcases hv with rfl | rfl
      · rw [← up, radSet_same _ nm u (by rw [up]; simp)]
      · rcases hnm with rfl | rfl <;>
        simp [radSetPar, up, parSeq, radToOther, parCreate, parLinkKey, ua, List.lookup,
          pointNames, sieNames]
    · rw [radSet_bad _ nm u v hv]
  have ht : t = u := by
    have : ∀ vs : List String, parRun (radSetPar .refuse nm) u (vs.map .setPar) = u := by
      intro vs
      induction vs with
      | nil => rfl
      | cons v vs ih =>
        simp only [List.map_cons, parRun, List.foldl_cons, parStep, stuck] at ih ⊢
        exact ih
    have h1 : t = parRun (radSetPar .refuse nm) (radSetPar .refuse nm nm.par s).1
        (vs.map .setPar) := rfl
    rw [h1, hu]
    exact this vs
  refine ⟨by rw [hu], by rw [ht, up], by rw [ht, un], 3, 4, ?_, ?_, by decide⟩
  · rw [ht, un]
    rcases hnm with rfl | rfl <;> simp [List.lookup, pointNames, sieNames]
  · rw [ht, ua]; simp [List.lookup]

/-- If `link` replaces, the lens nevertheless always computes with the right numbers: in the other
parametrization `Rein` is the conversion of the current parameter and redshifts; otherwise it is
its own value, whatever the values of other parameters. -/
theorem C71_value_partial (nm : RadNames) (hnm : nm = pointNames ∨ nm = sieNames)
    (rein zs zl : Option ℝ) (ops : List ParOp) (conv : ℝ → ℝ → ℝ → ℝ) (env env' : ℕ → ℝ)
    (own : ℝ) :
    let s := parRun (radSetPar .replace nm) (radInit rein zs zl) ops
    (s.par = nm.par ∧ ∃ a, s.attrs.lookup nm.param = some a ∧
      radRein nm conv s env own = some (conv (parVal s env a) (parVal s env 1) (parVal s env 0))) ∨
    (s.par = "Rein" ∧ s.attrs.lookup nm.param = none ∧ (radRein nm conv s env own).isSome ∧
      radRein nm conv s env own = radRein nm conv s env' own) := by
  intro s
  have hr : s.par = "Rein" → s.attrs = radBase → (s.nodes "Rein").kind ≠ .computed →
      (s.par = "Rein" ∧ s.attrs.lookup nm.param = none ∧ (radRein nm conv s env own).isSome ∧
      radRein nm conv s env own = radRein nm conv s env' own) := by
    intro hp ha hk
    refine ⟨hp, ?_, ?_, ?_⟩
    · rw [ha]; rcases hnm with rfl | rfl <;> simp [List.lookup, pointNames, sieNames]
    · simp only [radRein, parNodeValue]; split <;> simp_all
    · simp only [radRein, parNodeValue]; split <;> simp_all
  rcases radInv_run nm hnm rein zs zl ops with h | h | h
  · exact Or.inr (hr h.1 h.2.1 h.2.2.2)
  · exact Or.inr (hr h.1 h.2.1 h.2.2.2)
  · exact Or.inl ⟨h.1, radRein_other nm hnm conv s h env own⟩

/-- If `link` replaces, accepted names never raise and take effect; others raise ValueError and
change nothing. -/
theorem C71_assign_partial (nm : RadNames) (hnm : nm = pointNames ∨ nm = sieNames)
    (rein zs zl : Option ℝ) (ops : List ParOp) (v : String) :
    let s := parRun (radSetPar .replace nm) (radInit rein zs zl) ops
    (v ∈ ["Rein", nm.par] → (radSetPar .replace nm v s).2 = none ∧
      (radSetPar .replace nm v s).1.par = v) ∧
    (v ∉ ["Rein", nm.par] → radSetPar .replace nm v s = (s, some .value)) := by
  intro s
  refine ⟨fun hv => ?_, radSet_bad _ nm s v⟩
  have h : RadInv nm s := radInv_run nm hnm rein zs zl ops
  by_cases hs : s.par = v
  · subst hs
    rw [radSet_same _ nm s hv]; exact ⟨rfl, rfl⟩
  · simp only [List.mem_cons, List.not_mem_nil, or_false] at hv
    rcases hv with rfl | rfl
    · rcases h with h | h | h
      · exact absurd h.1 hs
      · exact absurd h.1 hs
      · obtain ⟨s', e, hu, _⟩ := radToRein_ok .replace nm hnm s h
        rw [e]; exact ⟨rfl, hu.1⟩
    · rcases h with h | h | h
      · obtain ⟨s', e, ho, _⟩ := radToOther_fresh .replace nm hnm s h
        rw [e]; exact ⟨rfl, ho.1⟩
      · obtain ⟨s', e, ho, _⟩ := radToOther_used nm hnm s h
        rw [e]; exact ⟨rfl, ho.1⟩
      · exact absurd h.1 hs

/-- As long as the user never switches *back*, everything holds under either behaviour of `link`:
the dependencies are exactly right and `Rein` is the conversion of the current parameters. -/
theorem C71_forward_partial (pol : LinkPolicy) (nm : RadNames)
    (hnm : nm = pointNames ∨ nm = sieNames) (rein zs zl : Option ℝ) (ops : List ParOp)
    (hops : ∀ op ∈ ops, op ≠ .setPar "Rein") (conv : ℝ → ℝ → ℝ → ℝ) (env : ℕ → ℝ) (own : ℝ) :
    let s := parRun (radSetPar pol nm) (radInit rein zs zl) ops
    (∀ e ∈ (s.nodes "Rein").links, e ∈ s.attrs) ∧
    (.setPar nm.par ∈ ops → s.par = nm.par ∧ ∃ a, s.attrs.lookup nm.param = some a ∧
      radRein nm conv s env own = some (conv (parVal s env a) (parVal s env 1) (parVal s env 0))) ∧
    (.setPar nm.par ∉ ops → s.par = "Rein" ∧ (s.nodes "Rein").links = []) := by
  intro s
  have hinv : ∀ (ops : List ParOp), (∀ op ∈ ops, op ≠ .setPar "Rein") → ∀ s : ParObj,
      (RadOther nm s → RadOther nm (parRun (radSetPar pol nm) s ops)) ∧
      (RadFresh s → (.setPar nm.par ∈ ops → RadOther nm (parRun (radSetPar pol nm) s ops)) ∧
        (.setPar nm.par ∉ ops → RadFresh (parRun (radSetPar pol nm) s ops))) := by
    intro ops
    induction ops with
    | nil => exact fun _ s => ⟨id, fun h => ⟨fun h' => by simp at h', fun _ => h⟩⟩
    | cons o os ih =>
      intro ho s
      have ih' := ih (fun op h => ho op (List.mem_cons_of_mem _ h))
      have hrun : parRun (radSetPar pol nm) s (o :: os)
          = parRun (radSetPar pol nm) (parStep (radSetPar pol nm) s o).1 os := rfl
      rw [hrun]
      have hOO : RadOther nm s → RadOther nm (parStep (radSetPar pol nm) s o).1 := by
        intro h
        cases o with
        | assignNode n v => exact (rad_assignNode _ nm s n v).2.2 h
        | assignAttr p v => exact (rad_assignAttr _ nm s p v).2.2 h
        | setPar v =>
          simp only [parStep]
          by_cases hv : v ∈ ["Rein", nm.par]
          · simp only [List.mem_cons, List.not_mem_nil, or_false] at hv
            rcases hv with rfl | rfl
            · exact absurd rfl (ho _ (List.mem_cons_self ..))
            · rw [show nm.par = s.par from h.1.symm, radSet_same pol nm s (by rw [h.1]; simp)]
              exact h
          · rw [radSet_bad _ nm s v hv]; exact h
      refine ⟨fun h => (ih' _).1 (hOO h), fun h => ?_⟩
      by_cases hoe : o = .setPar nm.par
      · subst hoe
        obtain ⟨s', e, hO, _⟩ := radToOther_fresh pol nm hnm s h
        refine ⟨fun _ => ?_, fun h' => absurd (List.mem_cons_self ..) h'⟩
        simp only [parStep, e]
        exact (ih' _).1 hO
      · have hF : RadFresh (parStep (radSetPar pol nm) s o).1 := by
          cases o with
          | assignNode n v => exact (rad_assignNode _ nm s n v).1 h
          | assignAttr p v => exact (rad_assignAttr _ nm s p v).1 h
          | setPar v =>
            have hv : v ∉ ["Rein", nm.par] := by
              simp only [List.mem_cons, List.not_mem_nil, or_false, not_or]
              exact ⟨fun h => ho _ (List.mem_cons_self ..) (by rw [h]), fun h => hoe (by rw [h])⟩
            simp only [parStep]
            rw [radSet_bad _ nm s v hv]; exact h
        obtain ⟨hA, hB⟩ := (ih' _).2 hF
        constructor
        · intro hm
          rcases List.mem_cons.1 hm with h' | h'
          · exact absurd h'.symm hoe
          · exact hA h'
        · exact fun hm => hB (fun h' => hm (List.mem_cons_of_mem _ h'))
  obtain ⟨hA, hB⟩ := (hinv ops hops _).2 (radFresh_init rein zs zl)
  by_cases hm : ParOp.setPar nm.par ∈ ops
  · have hO : RadOther nm s := hA hm
    refine ⟨?_, fun _ => ⟨hO.1, radRein_other nm hnm conv s hO env own⟩, fun h => absurd hm h⟩
    obtain ⟨_, a, ha, hl⟩ := hO
    rw [hl, ha]
    intro e he
    simp only [List.mem_cons, List.not_mem_nil, or_false] at he ⊢
    tauto
  · have hF : RadFresh s := hB hm
    refine ⟨?_, fun h => absurd h hm, fun _ => ⟨hF.1, hF.2.2.1⟩⟩
    rw [hF.2.2.1]; simp

/-- Object identities: a parameter created by the setter is none of the first three objects. -/
private def ParFresh (p : String) (s : ParObj) : Prop := 3 ≤ s.next ∧ ∀ e ∈ s.attrs, e.1 = p → 3 ≤ e.2

private def ParKeeps (p : String) (f : ParStmt) : Prop := ∀ s, ParFresh p s → ParFresh p (f s).1

private theorem parKeeps_seq (p : String) (l : List ParStmt) (h : ∀ f ∈ l, ParKeeps p f) : ParKeeps p (parSeq l) := by
  induction l with
  | nil => exact fun s hs => hs
  | cons f fs ih =>
    intro s hs
    have h1 := h f (by simp) s hs
    have h2 := ih fun g hg => h g (by simp [hg])
    simp only [parSeq]
    split
    · rename_i s' e
      rw [e] at h1
      exact h2 s' h1
    · rename_i s' e' e
      rw [e] at h1
      exact h1

private theorem parKeeps_try (p : String) (f : ParStmt) (h : ParKeeps p f) : ParKeeps p (parTry f) := by
  intro s hs
  have h1 := h s hs
  simp only [parTry]
  split
  · rename_i s' e
    rw [e] at h1
    exact h1
  · exact h1

private theorem parKeeps_create (pol : LinkPolicy) (p q : String) : ParKeeps p (parCreate pol q) := by
  intro s hs
  simp only [parCreate]
  split
  · exact hs
  · rename_i l e
    refine ⟨Nat.le_succ_of_le hs.1, ?_⟩
    intro x hx hp
    simp only at hx
    have hl : x = (q, s.next) ∨ x ∈ s.attrs := by
      simp only [parLinkKey] at e
      split at e
      · rw [← Option.some.inj e] at hx
        simpa using hx
      · cases pol with
        | refuse => simp at e
        | replace =>
          simp only at e
          rw [← Option.some.inj e] at hx
          simp only [List.mem_cons, List.mem_filter] at hx
          exact hx.imp id And.left
    rcases hl with rfl | hl
    · exact hs.1
    · exact hs.2 x hl hp

private theorem parKeeps_delete (p q : String) : ParKeeps p (parDelete q) := by
  intro s hs
  simp only [parDelete]
  split
  · exact hs
  · exact ⟨hs.1, fun e he => hs.2 e (List.mem_filter.1 he).1⟩

private theorem parKeeps_read (p q : String) : ParKeeps p (parRead q) := by
  intro s hs
  simp only [parRead]
  split <;> exact hs

private theorem parKeeps_set (p n : String) (k : ParKind) : ParKeeps p (parSetKind n k) := fun _ hs => hs

private theorem parKeeps_name (p v : String) : ParKeeps p (parName v) := fun _ hs => hs

private theorem parKeeps_link (pol : LinkPolicy) (p n q : String) : ParKeeps p (parLink pol n q) := by
  intro s hs
  simp only [parLink]
  split
  · exact hs
  · split <;> exact hs

private theorem parKeeps_rad (pol : LinkPolicy) (nm : RadNames) (p v : String) : ParKeeps p (radSetPar pol nm v) := by
  intro s hs
  have k1 : ParKeeps p (radToOther pol nm) := by
    refine parKeeps_seq p _ fun f hf => ?_
    simp only [List.mem_cons, List.not_mem_nil, or_false] at hf
    rcases hf with rfl | rfl | rfl | rfl | rfl | rfl
    · exact parKeeps_create pol p _
    · exact parKeeps_set p _ _
    all_goals exact parKeeps_link pol p _ _
  have k2 : ParKeeps p (radToRein nm) := by
    refine parKeeps_try p _ (parKeeps_seq p _ fun f hf => ?_)
    simp only [List.mem_cons, List.not_mem_nil, or_false] at hf
    rcases hf with rfl | rfl | rfl
    · exact parKeeps_set p _ _
    · exact parKeeps_read p _
    · exact parKeeps_delete p _
  simp only [radSetPar]
  split_ifs
  · refine parKeeps_seq p _ (fun f hf => ?_) s hs
    simp only [List.mem_cons, List.not_mem_nil, or_false] at hf
    rcases hf with rfl | rfl
    · exact k1
    · exact parKeeps_name p _
  · refine parKeeps_seq p _ (fun f hf => ?_) s hs
    simp only [List.mem_cons, List.not_mem_nil, or_false] at hf
    rcases hf with rfl | rfl
    · exact k2
    · exact parKeeps_name p _
  · exact hs
  · exact hs

private theorem parFresh_run (pol : LinkPolicy) (nm : RadNames) (p : String) (ops : List ParOp) (s : ParObj)
    (hs : ParFresh p s) : ParFresh p (parRun (radSetPar pol nm) s ops) := by
  induction ops generalizing s with
  | nil => exact hs
  | cons op ops ih =>
    refine ih _ ?_
    cases op with
    | setPar v => exact parKeeps_rad pol nm p v s hs
    | assignNode n v =>
      simp only [parStep]
      split_ifs
      · exact hs
      · exact hs
    | assignAttr q v =>
      simp only [parStep]
      split <;> exact hs

/-- The numbers a user supplies are the ones used: `Rein` given to the constructor; and, if `link` replaces, mass or
velocity dispersion and the redshifts last assigned, whatever was done before. -/
theorem C71_assigned_partial (nm : RadNames) (hnm : nm = pointNames ∨ nm = sieNames) (rein zs zl : Option ℝ)
    (ops : List ParOp) (conv : ℝ → ℝ → ℝ → ℝ) (env : ℕ → ℝ) (own r m zl' zs' : ℝ) :
    radRein nm conv (radInit (some r) zs zl) env own = some r ∧
    (∀ s, s = parRun (radSetPar .replace nm) (radInit rein zs zl)
        (ops ++ [.assignAttr nm.param (some m), .assignAttr "z_l" (some zl'), .assignAttr "z_s" (some zs')]) →
      s.par = nm.par → radRein nm conv s env own = some (conv m zl' zs')) ∧
    (∀ s, s = parRun (radSetPar .replace nm) (radInit rein zs zl) (ops ++ [.assignNode "Rein" (some r)]) →
      s.par = "Rein" → radRein nm conv s env own = some r) := by
  have hnp : nm.param ≠ "z_l" ∧ nm.param ≠ "z_s" ∧ nm.param ≠ "cosmology" ∧ nm.par ≠ "Rein" := by
    rcases hnm with rfl | rfl <;> simp [pointNames, sieNames]
  refine ⟨by simp [radRein, parNodeValue, radInit, parInitKind], ?_, ?_⟩
  · have hi := radInv_run nm hnm rein zs zl ops
    have hf := parFresh_run .replace nm nm.param ops (radInit rein zs zl) (by
      refine ⟨le_rfl, fun e he hp => ?_⟩
      simp only [radInit, List.mem_cons, List.not_mem_nil, or_false] at he
      rcases he with rfl | rfl | rfl
      · exact absurd hp.symm hnp.2.1
      · exact absurd hp.symm hnp.1
      · exact absurd hp.symm hnp.2.2.1)
    rw [show ∀ l, parRun (radSetPar .replace nm) (radInit rein zs zl) (ops ++ l) = parRun (radSetPar .replace nm)
      (parRun (radSetPar .replace nm) (radInit rein zs zl) ops) l from fun l => by simp [parRun, List.foldl_append]]
    generalize parRun (radSetPar .replace nm) (radInit rein zs zl) ops = s at hi hf
    have hpar : ∀ s' p v, (parStep (radSetPar .replace nm) s' (.assignAttr p v)).1.par = s'.par := by
      intro s' p v
      simp only [parStep]
      split <;> rfl
    rintro _ rfl hp
    simp only [parRun, List.foldl, hpar] at hp
    have ho : RadOther nm s := by
      rcases hi with h | h | h
      · exact absurd (hp.symm.trans h.1) hnp.2.2.2
      · exact absurd (hp.symm.trans h.1) hnp.2.2.2
      · exact h
    obtain ⟨_, a, ha, hn⟩ := ho
    have ha3 : 3 ≤ a := hf.2 (nm.param, a) (by rw [ha]; simp) rfl
    have a0 : a ≠ 0 := by omega
    have a1 : a ≠ 1 := by omega
    rcases hnm with rfl | rfl <;>
    simp [parRun, parStep, ha, radBase, List.lookup, Function.update, radRein, parNodeValue, parArg, hn, radLinks, parVal,
      parInitKind, pointNames, sieNames, a0, a1, a0.symm, a1.symm]
  · have hi := radInv_run nm hnm rein zs zl ops
    rw [show ∀ l, parRun (radSetPar .replace nm) (radInit rein zs zl) (ops ++ l) = parRun (radSetPar .replace nm)
      (parRun (radSetPar .replace nm) (radInit rein zs zl) ops) l from fun l => by simp [parRun, List.foldl_append]]
    generalize parRun (radSetPar .replace nm) (radInit rein zs zl) ops = s at hi
    have hfin : (s.nodes "Rein").kind ≠ .computed → ∀ s', s' = parRun (radSetPar .replace nm) s
        [.assignNode "Rein" (some r)] → s'.par = "Rein" → radRein nm conv s' env own = some r := by
      rintro hk _ rfl -
      simp [parRun, parStep, hk, parSetKind, Function.update, radRein, parNodeValue, parInitKind]
    rcases hi with h | h | h
    · exact hfin h.2.2.2
    · exact hfin h.2.2.2
    · rintro _ rfl hp
      obtain ⟨h1, a, _, hn⟩ := h
      simp only [parRun, List.foldl, parStep, hn] at hp
      exact absurd (h1.symm.trans hp) hnp.2.2.2

/-- What the attributes are called: whatever was done before, a point lens given by "mass" has the Einstein radius of the
mass last assigned to `lens.mass`, and an SIE given by "velocity_dispersion" that of `lens.sigma_v`. -/
theorem C71_names_partial (c : Cosmo) (ckms : ℝ) (rein zs zl : Option ℝ) (ops : List ParOp) (env : ℕ → ℝ) (own m zl' zs' : ℝ) :
    (∀ s, s = parRun (radSetPar .replace pointNames) (radInit rein zs zl)
        (ops ++ [.assignAttr "mass" (some m), .assignAttr "z_l" (some zl'), .assignAttr "z_s" (some zs')]) →
      s.par = "mass" → radRein pointNames (pointConv c) s env own =
        some (massToReinPoint c.GOverC2 m (c.angular12 zl' zs') (c.angular zl') (c.angular zs'))) ∧
    (∀ s, s = parRun (radSetPar .replace sieNames) (radInit rein zs zl)
        (ops ++ [.assignAttr "sigma_v" (some m), .assignAttr "z_l" (some zl'), .assignAttr "z_s" (some zs')]) →
      s.par = "velocity_dispersion" → radRein sieNames (sieConv ckms c) s env own =
        some (sigmaVToRein ckms m (c.angular12 zl' zs') (c.angular zs'))) :=
  ⟨(C71_assigned_partial pointNames (Or.inl rfl) rein zs zl ops (pointConv c) env own 0 m zl' zs').2.1,
    (C71_assigned_partial sieNames (Or.inr rfl) rein zs zl ops (sieConv ckms c) env own 0 m zl' zs').2.1⟩

/-- The conversions used by the two classes: a point lens of mass `m` and the SIE of velocity
dispersion `sigma`, with the distances of the cosmology to the current redshifts. -/
example (c : Cosmo) (env : ℕ → ℝ) :
    let s := parRun (radSetPar .refuse pointNames) (radInit (some 1) (some 2) (some 0.5))
      [.setPar "mass", .assignAttr "mass" (some 1e10), .assignAttr "z_s" (some 3)]
    radRein pointNames (pointConv c) s env 7
      = some (massToReinPoint c.GOverC2 1e10 (c.angular12 0.5 3) (c.angular 0.5) (c.angular 3)) := by
  simp [parRun, parStep, radSetPar, parSeq, radToOther, parCreate, parLinkKey, radInit,
    List.lookup, parSetKind, parLink, Function.update, parName, pointNames, radRein, parNodeValue,
    parArg, parVal, parInitKind, pointConv]

example (ckms : ℝ) (c : Cosmo) (env : ℕ → ℝ) :
    let s := parRun (radSetPar .replace sieNames) (radInit (some 1) (some 2) (some 0.5))
      [.setPar "velocity_dispersion", .setPar "Rein", .setPar "velocity_dispersion",
       .assignAttr "sigma_v" (some 250)]
    radRein sieNames (sieConv ckms c) s env 7
      = some (sigmaVToRein ckms 250 (c.angular12 0.5 2) (c.angular 2)) := by
  simp [parRun, parStep, radSetPar, parSeq, radToOther, radToRein, parCreate, parLinkKey, radInit,
    List.lookup, parSetKind, parLink, Function.update, parName, sieNames, radRein, parNodeValue,
    parArg, parVal, parInitKind, sieConv, parTry, parRead, parDelete]

end Caustics

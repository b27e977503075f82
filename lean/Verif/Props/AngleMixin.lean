import Verif.Model.AngleMixin

/-! C04: switching `angle_system`. -/

namespace Caustics

/-- The parameters a system has besides `q` and `phi`. -/
def angParams : AngSys → List AngParam
  | .qPhi => []
  | .e1e2 => [.e1, .e2]
  | .c1c2 => [.c1, .c2]

/-- Name of a system as the user writes it. -/
def angName : AngSys → String
  | .qPhi => "q_phi"
  | .e1e2 => "e1_e2"
  | .c1c2 => "c1_c2"

/-- The exact shape of every reachable state. -/
private def AngInv (s : AngObj) : Prop :=
  match s.sys with
  | .qPhi => s.attrs = [] ∧ s.q.links = [] ∧ s.phi.links = [] ∧
      s.q.kind ≠ .fromE ∧ s.q.kind ≠ .fromC ∧ s.phi.kind ≠ .fromE ∧ s.phi.kind ≠ .fromC
  | .e1e2 => s.attrs = [.e2, .e1] ∧ s.q = ⟨.fromE, [.e2, .e1]⟩ ∧ s.phi = ⟨.fromE, [.e2, .e1]⟩
  | .c1c2 => s.attrs = [.c2, .c1] ∧ s.q = ⟨.fromC, [.c2, .c1]⟩ ∧ s.phi = ⟨.fromC, [.c2, .c1]⟩

private theorem angInv_init (q phi : Option ℝ) : AngInv (angInit q phi) := by
  cases q <;> cases phi <;> simp [AngInv, angInit]

private theorem angToE_ok (s : AngObj) (h : AngInv s) (hs : s.sys ≠ .e1e2) :
    angToE s = (⟨s.sys, [.e2, .e1], ⟨.fromE, [.e2, .e1]⟩, ⟨.fromE, [.e2, .e1]⟩⟩, none) := by
  obtain ⟨sys, attrs, ⟨qk, ql⟩, ⟨pk, pl⟩⟩ := s
  cases sys with
  | e1e2 => exact absurd rfl hs
  | qPhi =>
    obtain ⟨rfl, h2, h3, _⟩ := h
    simp only at h2 h3
    subst h2 h3
    simp [angToE, angSeq, angCreate, angSetQ, angSetPhi, angLinkQ, angLinkPhi, angTry, angUnlinkQ]
  | c1c2 =>
    obtain ⟨rfl, h2, h3⟩ := h
    simp only [AngNode.mk.injEq] at h2 h3
    obtain ⟨rfl, rfl⟩ := h2
    obtain ⟨rfl, rfl⟩ := h3
    simp [angToE, angSeq, angCreate, angSetQ, angSetPhi, angLinkQ, angLinkPhi, angTry, angUnlinkQ,
      angUnlinkPhi, angDelete]

private theorem angToC_ok (s : AngObj) (h : AngInv s) (hs : s.sys ≠ .c1c2) :
    angToC s = (⟨s.sys, [.c2, .c1], ⟨.fromC, [.c2, .c1]⟩, ⟨.fromC, [.c2, .c1]⟩⟩, none) := by
  obtain ⟨sys, attrs, ⟨qk, ql⟩, ⟨pk, pl⟩⟩ := s
  cases sys with
  | c1c2 => exact absurd rfl hs
  | qPhi =>
    obtain ⟨rfl, h2, h3, _⟩ := h
    simp only at h2 h3
    subst h2 h3
    simp [angToC, angSeq, angCreate, angSetQ, angSetPhi, angLinkQ, angLinkPhi, angTry, angUnlinkQ]
  | e1e2 =>
    obtain ⟨rfl, h2, h3⟩ := h
    simp only [AngNode.mk.injEq] at h2 h3
    obtain ⟨rfl, rfl⟩ := h2
    obtain ⟨rfl, rfl⟩ := h3
    simp [angToC, angSeq, angCreate, angSetQ, angSetPhi, angLinkQ, angLinkPhi, angTry, angUnlinkQ,
      angUnlinkPhi, angDelete]

private theorem angToQPhi_ok (s : AngObj) (h : AngInv s) (hs : s.sys ≠ .qPhi) :
    angToQPhi s = ({ s with attrs := [], q := ⟨.free, []⟩, phi := ⟨.free, []⟩ }, none) := by
  obtain ⟨sys, attrs, ⟨qk, ql⟩, ⟨pk, pl⟩⟩ := s
  cases sys with
  | qPhi => exact absurd rfl hs
  | e1e2 =>
    obtain ⟨rfl, h2, h3⟩ := h
    simp only [AngNode.mk.injEq] at h2 h3
    obtain ⟨rfl, rfl⟩ := h2
    obtain ⟨rfl, rfl⟩ := h3
    simp [angToQPhi, angSeq, angSetQ, angSetPhi, angTry, angUnlinkQ, angUnlinkPhi, angDelete,
      angRead]
  | c1c2 =>
    obtain ⟨rfl, h2, h3⟩ := h
    simp only [AngNode.mk.injEq] at h2 h3
    obtain ⟨rfl, rfl⟩ := h2
    obtain ⟨rfl, rfl⟩ := h3
    simp [angToQPhi, angSeq, angSetQ, angSetPhi, angTry, angUnlinkQ, angUnlinkPhi, angDelete,
      angRead]

/-- What one assignment does in a reachable state. -/
private theorem angSet_cases (v : String) (s : AngObj) (h : AngInv s) :
    (v ∉ ["q_phi", "e1_e2", "c1_c2"] ∧ angSetSystem v s = (s, some .value)) ∨
    ∃ t, v = angName t ∧ AngInv (angSetSystem v s).1 ∧ (angSetSystem v s).1.sys = t ∧
      (angSetSystem v s).2 = none ∧
      (s.sys = t → (angSetSystem v s).1 = s) ∧
      (s.sys ≠ t → t = .qPhi → (angSetSystem v s).1.q.kind = .free ∧
        (angSetSystem v s).1.phi.kind = .free) := by
  by_cases hv : v ∈ ["q_phi", "e1_e2", "c1_c2"]
  · right
    have hne : ¬ (v ∉ ["q_phi", "e1_e2", "c1_c2"]) := not_not.mpr hv
    simp only [List.mem_cons, List.not_mem_nil, or_false] at hv
    rcases hv with rfl | rfl | rfl
    · refine ⟨.qPhi, rfl, ?_⟩
      by_cases hs : s.sys = .qPhi
      · have : angSetSystem "q_phi" s = (s, none) := by simp [angSetSystem, hs]
        rw [this]
        exact ⟨h, hs, rfl, fun _ => rfl, fun h' => absurd hs h'⟩
      · have : angSetSystem "q_phi" s
            = (⟨.qPhi, [], ⟨.free, []⟩, ⟨.free, []⟩⟩, none) := by
          simp [angSetSystem, hs, angSeq, angToQPhi_ok s h hs]
        rw [this]
        refine ⟨?_, rfl, rfl, fun h' => absurd h' hs, fun _ _ => ⟨rfl, rfl⟩⟩
        simp [AngInv]
    · refine ⟨.e1e2, rfl, ?_⟩
      by_cases hs : s.sys = .e1e2
      · have : angSetSystem "e1_e2" s = (s, none) := by simp [angSetSystem, hs]
        rw [this]
        exact ⟨h, hs, rfl, fun _ => rfl, fun h' => absurd hs h'⟩
      · have : angSetSystem "e1_e2" s
            = (⟨.e1e2, [.e2, .e1], ⟨.fromE, [.e2, .e1]⟩, ⟨.fromE, [.e2, .e1]⟩⟩, none) := by
          simp [angSetSystem, hs, angSeq, angToE_ok s h hs]
        rw [this]
        exact ⟨⟨rfl, rfl, rfl⟩, rfl, rfl, fun h' => absurd h' hs, fun _ h' => by simp at h'⟩
    · refine ⟨.c1c2, rfl, ?_⟩
      by_cases hs : s.sys = .c1c2
      · have : angSetSystem "c1_c2" s = (s, none) := by simp [angSetSystem, hs]
        rw [this]
        exact ⟨h, hs, rfl, fun _ => rfl, fun h' => absurd hs h'⟩
      · have : angSetSystem "c1_c2" s
            = (⟨.c1c2, [.c2, .c1], ⟨.fromC, [.c2, .c1]⟩, ⟨.fromC, [.c2, .c1]⟩⟩, none) := by
          simp [angSetSystem, hs, angSeq, angToC_ok s h hs]
        rw [this]
        exact ⟨⟨rfl, rfl, rfl⟩, rfl, rfl, fun h' => absurd h' hs, fun _ h' => by simp at h'⟩
  · left
    exact ⟨hv, by simp only [angSetSystem]; rw [if_pos hv]⟩

private theorem angInv_step (s : AngObj) (h : AngInv s) (op : AngOp) : AngInv (angStep s op).1 := by
  cases op with
  | setSystem v =>
    rcases angSet_cases v s h with ⟨_, he⟩ | ⟨t, _, hi, _⟩
    · simp only [angStep, he]; exact h
    · exact hi
  | assignQ v =>
    simp only [angStep]
    by_cases hs : s.sys = .qPhi
    · rw [if_pos hs]
      unfold AngInv at h ⊢
      simp only [hs, angSetQ] at h ⊢
      obtain ⟨h1, h2, h3, h4, h5, h6, h7⟩ := h
      refine ⟨h1, h2, h3, ?_, ?_, h6, h7⟩ <;> cases v <;> simp
    · rw [if_neg hs]; exact h
  | assignPhi v =>
    simp only [angStep]
    by_cases hs : s.sys = .qPhi
    · rw [if_pos hs]
      unfold AngInv at h ⊢
      simp only [hs, angSetPhi] at h ⊢
      obtain ⟨h1, h2, h3, h4, h5, h6, h7⟩ := h
      refine ⟨h1, h2, h3, h4, h5, ?_, ?_⟩ <;> cases v <;> simp
    · rw [if_neg hs]; exact h

private theorem angInv_run (s : AngObj) (h : AngInv s) (ops : List AngOp) :
    AngInv (angRun s ops) := by
  induction ops generalizing s with
  | nil => exact h
  | cons op ops ih => exact ih _ (angInv_step s h op)

/-- C04: after any history the object has exactly the parameters of its current system, and
`q`, `phi` are linked to exactly those. -/
theorem C04_parameters (q0 phi0 : Option ℝ) (ops : List AngOp) (p : AngParam) :
    let s := angRun (angInit q0 phi0) ops
    (p ∈ s.attrs ↔ p ∈ angParams s.sys) ∧ (p ∈ s.q.links ↔ p ∈ angParams s.sys) ∧
    (p ∈ s.phi.links ↔ p ∈ angParams s.sys) := by
  intro s
  have h := angInv_run _ (angInv_init q0 phi0) ops
  change AngInv s at h
  unfold AngInv at h
  cases hs : s.sys <;> simp only [hs] at h
  · obtain ⟨h1, h2, h3, _⟩ := h
    simp [h1, h2, h3, angParams]
  · obtain ⟨h1, h2, h3⟩ := h
    simp [h1, h2, h3, angParams, or_comm]
  · obtain ⟨h1, h2, h3⟩ := h
    simp [h1, h2, h3, angParams, or_comm]

/-- C04: after any history `q` and `phi` evaluate without error; in the `e1_e2` and `c1_c2`
systems to the conversion of the current ellipticity parameters, and in the `q_phi` system to
a value of their own (free or assigned), whatever the ellipticity values are. -/
theorem C04_values (q0 phi0 : Option ℝ) (ops : List AngOp) (par : AngParam → ℝ)
    (ownQ ownPhi : ℝ) :
    let s := angRun (angInit q0 phi0) ops
    match s.sys with
    | .e1e2 => s.q.value false par ownQ = some (e1e2ToQ (par .e1) (par .e2)) ∧
        s.phi.value true par ownPhi = some (e1e2ToPhi (par .e1) (par .e2))
    | .c1c2 => s.q.value false par ownQ = some (c1c2ToQ (par .c1) (par .c2)) ∧
        s.phi.value true par ownPhi = some (c1c2ToPhi (par .c1) (par .c2))
    | .qPhi => (s.q.kind = .free ∧ s.q.value false par ownQ = some ownQ ∨
          ∃ v, s.q.kind = .static v ∧ s.q.value false par ownQ = some v) ∧
        (s.phi.kind = .free ∧ s.phi.value true par ownPhi = some ownPhi ∨
          ∃ v, s.phi.kind = .static v ∧ s.phi.value true par ownPhi = some v) := by
  intro s
  have h := angInv_run _ (angInv_init q0 phi0) ops
  change AngInv s at h
  unfold AngInv at h
  cases hs : s.sys <;> simp only [hs] at h
  · obtain ⟨_, _, _, h4, h5, h6, h7⟩ := h
    refine ⟨?_, ?_⟩
    · cases hk : s.q.kind with
      | free => left; exact ⟨rfl, by simp [AngNode.value, hk]⟩
      | static v => right; exact ⟨v, rfl, by simp [AngNode.value, hk]⟩
      | fromE => exact absurd hk h4
      | fromC => exact absurd hk h5
    · cases hk : s.phi.kind with
      | free => left; exact ⟨rfl, by simp [AngNode.value, hk]⟩
      | static v => right; exact ⟨v, rfl, by simp [AngNode.value, hk]⟩
      | fromE => exact absurd hk h6
      | fromC => exact absurd hk h7
  · obtain ⟨_, h2, h3⟩ := h
    simp [h2, h3, AngNode.value]
  · obtain ⟨_, h2, h3⟩ := h
    simp [h2, h3, AngNode.value]

/-- C04: in every reachable state an unknown name raises ValueError and changes nothing. -/
theorem C04_invalid (q0 phi0 : Option ℝ) (ops : List AngOp) (v : String)
    (hv : ∀ t, v ≠ angName t) :
    let s := angRun (angInit q0 phi0) ops
    angStep s (.setSystem v) = (s, some .value) := by
  intro s
  rcases angSet_cases v s (angInv_run _ (angInv_init q0 phi0) ops) with ⟨_, he⟩ | ⟨t, ht, _⟩
  · exact he
  · exact absurd ht (hv t)

/-- C04: in every reachable state a valid name is accepted without exception and becomes the
current system; assigning the current system changes nothing; switching to `q_phi` from another
system leaves `q` and `phi` free. -/
theorem C04_valid (q0 phi0 : Option ℝ) (ops : List AngOp) (t : AngSys) :
    let s := angRun (angInit q0 phi0) ops
    let r := angStep s (.setSystem (angName t))
    r.2 = none ∧ r.1.sys = t ∧ (s.sys = t → r.1 = s) ∧
    (s.sys ≠ .qPhi → t = .qPhi → r.1.q.kind = .free ∧ r.1.phi.kind = .free) := by
  intro s r
  have hi := angInv_run _ (angInv_init q0 phi0) ops
  rcases angSet_cases (angName t) s hi with ⟨hn, _⟩ | ⟨t', ht', _, h2, h3, h4, h5⟩
  · exact absurd (by cases t <;> simp [angName]) hn
  · have : t = t' := by cases t <;> cases t' <;> simp [angName] at ht' <;> rfl
    subst this
    exact ⟨h3, h2, h4, fun hq ht => h5 (by rw [ht]; exact hq) ht⟩

/-- A history through all systems with a rejected name in between. -/
example : (angRun (angInit (some 0.5) none)
    [.setSystem "e1_e2", .setSystem "bogus", .setSystem "c1_c2", .setSystem "q_phi",
      .assignQ (some 0.7), .setSystem "c1_c2"]).sys = .c1c2 := by
  simp [angRun, angStep, angSetSystem, angInit, angSeq, angToE, angToC, angToQPhi, angCreate,
    angSetQ, angSetPhi, angLinkQ, angLinkPhi, angTry, angUnlinkQ, angUnlinkPhi, angDelete, angRead]

end Caustics

import Verif.Model.BackendSwitch

/-! C89: switching the array library. -/

namespace Caustics

/-- The helpers that the modules of caustics call (all `backend.n` in src/caustics that are not plain methods
or properties of the class, which look the library up in `backend.module`). -/
def usedHelpers : List String :=
  ["arange", "as_array", "avg_pool2d", "cat", "chunk", "clamp", "concatenate", "conv2d", "detach", "device",
   "fill_at_indices", "flatten", "grad", "gradient", "hessian", "jacfwd", "linspace", "long", "make_array", "mean",
   "meshgrid", "norm", "numel", "pad", "rand", "randint", "repeat", "roll", "split_key", "stack", "std", "sum", "to",
   "unsqueeze", "view", "vmap"]

/-- The caustics side uses one library throughout, the one it names. -/
def OneLib (s : BackState) (l : ArrLib) : Prop :=
  s.name = some l.name ∧ s.module = some l ∧ (∀ n ∈ usedHelpers, s.helper n = some l) ∧ (l = .jax → s.hasKey = true)

theorem setHelpers_mem (names : List String) (l : ArrLib) (h : String → Option ArrLib) (n : String)
    (hn : n ∈ names ∨ h n = some l) : setHelpers names l h n = some l := by
  induction names generalizing h with
  | nil => simpa [setHelpers] using hn
  | cons m names ih =>
    refine ih _ ?_
    rcases hn with hn | hn
    · rcases List.mem_cons.1 hn with rfl | hn
      · right; simp
      · left; exact hn
    · right; simp only [hn, ite_self]

theorem used_torch : ∀ n ∈ usedHelpers, n ∈ torchNames := by decide +kernel
theorem used_jax : ∀ n ∈ usedHelpers, n ∈ jaxNames := by decide +kernel

/-- An assignment that returns leaves one library in use on the caustics side and the same in caskade. -/
theorem C89_switch (env : Option String) (ckOk : String → Bool) (s : BackState) (b : Option String)
    (h : (setBackend env ckOk s b).1 = .ok ()) :
    ∃ l : ArrLib, l.name = b.getD (env.getD s.ck) ∧ OneLib (setBackend env ckOk s b).2 l ∧
      (setBackend env ckOk s b).2.ck = l.name := by
  unfold setBackend at h ⊢
  generalize b.getD (env.getD s.ck) = c at h ⊢
  dsimp only at h ⊢
  by_cases hc : ckOk c = true
  · rw [if_pos hc] at h ⊢
    unfold loadBackend at h ⊢
    by_cases h1 : c = "torch"
    · subst h1
      exact ⟨.torch, rfl, ⟨rfl, rfl, fun n hn => setHelpers_mem _ _ _ _ (Or.inl (used_torch n hn)), fun h => nomatch h⟩, rfl⟩
    · by_cases h2 : c = "jax"
      · subst h2
        exact ⟨.jax, rfl, ⟨rfl, rfl, fun n hn => setHelpers_mem _ _ _ _ (Or.inl (used_jax n hn)), fun _ => rfl⟩, rfl⟩
      · simp [h1, h2] at h
  · rw [if_neg hc] at h
    cases h

/-- An assignment that raises changes nothing on the caustics side. -/
theorem C89_raise (env : Option String) (ckOk : String → Bool) (s : BackState) (b : Option String) (e : PyErr)
    (h : (setBackend env ckOk s b).1 = .error e) :
    e = .valueError ∧ (setBackend env ckOk s b).2 = { s with ck := (setBackend env ckOk s b).2.ck } := by
  unfold setBackend at h ⊢
  generalize b.getD (env.getD s.ck) = c at h ⊢
  dsimp only at h ⊢
  by_cases hc : ckOk c = true
  · rw [if_pos hc] at h ⊢
    unfold loadBackend at h ⊢
    by_cases h1 : c = "torch"
    · simp [h1] at h
    · by_cases h2 : c = "jax"
      · simp [h2] at h
      · simp only [h1, h2, if_false] at h ⊢
        cases h
        simp
  · rw [if_neg hc] at h ⊢
    cases h
    exact ⟨rfl, rfl⟩

/-- Whatever names are assigned after a successful import, caustics uses one library throughout. -/
theorem C89_run (env : Option String) (ckOk : String → Bool) (ck0 : String)
    (h : (importBackend env ckOk ck0).1 = .ok ()) (bs : List (Option String)) :
    ∃ l, OneLib (runSwitches env ckOk (importBackend env ckOk ck0).2 bs) l := by
  have hl : ∃ l, OneLib (importBackend env ckOk ck0).2 l := by
    obtain ⟨l, _, hl, _⟩ := C89_switch _ _ _ _ h
    exact ⟨l, hl⟩
  clear h
  generalize (importBackend env ckOk ck0).2 = s at hl
  induction bs generalizing s with
  | nil => exact hl
  | cons b bs ih =>
    change ∃ l, OneLib (runSwitches env ckOk (setBackend env ckOk s b).2 bs) l
    rcases hr : (setBackend env ckOk s b).1 with e | ⟨⟩
    · have := (C89_raise env ckOk s b e hr).2
      refine ih _ ?_
      rw [this]
      exact hl
    · obtain ⟨l', _, hl', _⟩ := C89_switch _ _ _ _ hr
      exact ih _ ⟨l', hl'⟩

/-- The last assignment that is accepted decides. -/
theorem C89_last (env : Option String) (ckOk : String → Bool) (s : BackState) (bs : List (Option String)) (l : ArrLib)
    (hl : ckOk l.name = true) : OneLib (runSwitches env ckOk s (bs ++ [some l.name])) l ∧
      (runSwitches env ckOk s (bs ++ [some l.name])).ck = l.name := by
  unfold runSwitches
  rw [List.foldl_append]
  generalize bs.foldl (fun s b => (setBackend env ckOk s b).2) s = t
  have h : (setBackend env ckOk t (some l.name)).1 = .ok () := by
    cases l <;> simp only [ArrLib.name] at hl <;> simp [setBackend, loadBackend, hl, ArrLib.name]
  obtain ⟨l', hn, h1, h2⟩ := C89_switch _ _ _ _ h
  have : l' = l := by
    revert hn; cases l <;> cases l' <;> simp [ArrLib.name]
  subst this
  exact ⟨h1, h2⟩

/-- What importing caustics chooses: the library named by the environment, otherwise the one caskade has chosen; any other
name in the environment makes the import raise. -/
theorem C89_import (env : Option String) (ckOk : String → Bool) (ck0 : String) :
    (∀ l : ArrLib, ckOk l.name = true → env.getD ck0 = l.name → (importBackend env ckOk ck0).1 = .ok () ∧
      OneLib (importBackend env ckOk ck0).2 l ∧ (importBackend env ckOk ck0).2.ck = l.name) ∧
    (env.getD ck0 ≠ "torch" → env.getD ck0 ≠ "jax" → (importBackend env ckOk ck0).1 = .error .valueError) := by
  constructor
  · intro l hl he
    have h : (importBackend env ckOk ck0).1 = .ok () := by
      cases l <;> simp only [ArrLib.name] at hl he <;> simp [importBackend, setBackend, loadBackend, hl, he]
    obtain ⟨l', hn, h1, h2⟩ := C89_switch _ _ _ _ h
    have hn' : l'.name = l.name := by
      rw [← he]
      simpa using hn
    have : l' = l := by
      revert hn'; cases l <;> cases l' <;> simp [ArrLib.name]
    subst this
    exact ⟨h, h1, h2⟩
  · intro h1 h2
    by_cases hc : ckOk (env.getD ck0) = true <;> simp [importBackend, setBackend, loadBackend, hc, h1, h2]

/-- The environment asks for jax while caskade would choose torch. -/
example : OneLib (importBackend (some "jax") (fun c => c = "torch" || c = "jax") "torch").2 .jax :=
  ((C89_import (some "jax") _ "torch").1 .jax (by decide) rfl).2.1

/-- The full claim: caustics and caskade always use the same library. -/
def C89_statement : Prop :=
  ∀ (env : Option String) (ckOk : String → Bool), ckOk "torch" = true → ckOk "jax" = true → ∀ (ck0 : String),
    (importBackend env ckOk ck0).1 = .ok () → ∀ bs,
      (runSwitches env ckOk (importBackend env ckOk ck0).2 bs).name
        = some (runSwitches env ckOk (importBackend env ckOk ck0).2 bs).ck

/-- It fails with a caskade that knows a third library: the assignment raises, but only after caskade has
switched, and afterwards even `backend.backend = None` raises. -/
theorem C89_fails_third (ckOk : String → Bool) (h : ckOk "torch" = true) (c : String) (hc : ckOk c = true)
    (h1 : c ≠ "torch") (h2 : c ≠ "jax") :
    (importBackend none ckOk "torch").1 = .ok () ∧
    (setBackend none ckOk (importBackend none ckOk "torch").2 (some c)).1 = .error .valueError ∧
    (setBackend none ckOk (importBackend none ckOk "torch").2 (some c)).2.name = some "torch" ∧
    (setBackend none ckOk (importBackend none ckOk "torch").2 (some c)).2.ck = c ∧
    (setBackend none ckOk (setBackend none ckOk (importBackend none ckOk "torch").2 (some c)).2 none).1
      = .error .valueError := by
  simp [importBackend, setBackend, loadBackend, h, hc, h1, h2]

theorem C89_fails : ¬ C89_statement := by
  intro hs
  have h := C89_fails_third (fun _ => true) rfl "numpy" rfl (by decide) (by decide)
  have := hs none (fun _ => true) rfl rfl "torch" h.1 [some "numpy"]
  simp only [runSwitches, List.foldl_cons, List.foldl_nil] at this
  rw [h.2.2.1, h.2.2.2.1] at this
  exact absurd this (by decide)

/-- It holds with a caskade that accepts only the two names. -/
theorem C89_agree_partial (env : Option String) (ckOk : String → Bool)
    (hck : ∀ c, ckOk c = true → c = "torch" ∨ c = "jax") (ck0 : String)
    (h : (importBackend env ckOk ck0).1 = .ok ()) (bs : List (Option String)) :
    (runSwitches env ckOk (importBackend env ckOk ck0).2 bs).name
        = some (runSwitches env ckOk (importBackend env ckOk ck0).2 bs).ck := by
  obtain ⟨l, _, hl, hk⟩ := C89_switch _ _ _ _ h
  have h0 : (importBackend env ckOk ck0).2.name = some (importBackend env ckOk ck0).2.ck := by
    change (importBackend env ckOk ck0).2.ck = _ at hk
    rw [hk]; exact hl.1
  generalize (importBackend env ckOk ck0).2 = s at h0
  induction bs generalizing s with
  | nil => exact h0
  | cons b bs ih =>
    refine ih _ ?_
    beta_reduce
    rcases hr : (setBackend env ckOk s b).1 with e | ⟨⟩
    · have hs : (setBackend env ckOk s b).2 = s := by
        unfold setBackend at hr ⊢
        generalize b.getD (env.getD s.ck) = c at hr ⊢
        dsimp only at hr ⊢
        by_cases hc : ckOk c = true
        · rcases hck c hc with rfl | rfl <;> simp [hc, loadBackend] at hr
        · rw [if_neg hc]
      rw [hs]; exact h0
    · obtain ⟨l', _, hl', hk'⟩ := C89_switch _ _ _ _ hr
      rw [hk']; exact hl'.1

/-- Torch, then jax, then a misspelt name: jax stays. -/
example : (runSwitches none (fun c => c = "torch" || c = "jax")
    (importBackend none (fun c => c = "torch" || c = "jax") "torch").2 [some "jax", some "Torch"]).name = some "jax" := by
  decide +kernel

example : (runSwitches none (fun c => c = "torch" || c = "jax")
    (importBackend none (fun c => c = "torch" || c = "jax") "torch").2 [some "jax", some "Torch"]).helper "vmap"
      = some .jax := by
  decide +kernel

/-- Importing caustics with an unsupported library in the environment raises. -/
example : (importBackend (some "numpy") (fun _ => true) "torch").1 = .error .valueError := by decide +kernel

end Caustics

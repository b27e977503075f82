import Verif.Model.RandomKey
import Mathlib.Tactic.Linarith

/-! C93: random numbers. -/

namespace Caustics

/-- The draws whose key the user did not choose. -/
def ownDraws (l : List RDraw) : List RSrc := (l.filter fun d => !d.user || d.src matches .gen _).map RDraw.src

/-- How deep a key is below `k` on the path of first halves, and nothing else. -/
inductive RKey.FstOf (k : RKey) : RKey → Prop where
  | refl : FstOf k k
  | fst {k' : RKey} : FstOf k k' → FstOf k k'.fst

/-- Sources a state may still produce. -/
def RState.Future (s : RState) : RSrc → Prop
  | .gen n => s.lib = .torch ∧ s.pos ≤ n
  | .key k => s.lib = .jax ∧ ∃ k', s.key.FstOf k' ∧ k = k'.snd

theorem FstOf.trans {a b c : RKey} (h : a.FstOf b) (h' : b.FstOf c) : a.FstOf c := by
  induction h' with
  | refl => exact h
  | fst _ ih => exact ih.fst

theorem FstOf.size {a b : RKey} (h : a.FstOf b) : sizeOf a ≤ sizeOf b := by
  induction h with
  | refl => exact le_rfl
  | fst _ ih => simp only [RKey.fst.sizeOf_spec]; omega

/-- One draw: `s` becomes `s'`, the source is new, and stays behind. -/
structure Fresh (s s' : RState) (l : List RSrc) : Prop where
  nodup : l.Nodup
  now : ∀ a ∈ l, s.Future a
  later : ∀ a, s'.Future a → s.Future a
  apart : ∀ a ∈ l, ¬ s'.Future a

theorem Fresh.nil (s : RState) : Fresh s s [] := ⟨List.nodup_nil, by simp, fun _ h => h, by simp⟩

theorem Fresh.append {s s' s'' : RState} {l l' : List RSrc} (h : Fresh s s' l) (h' : Fresh s' s'' l') :
    Fresh s s'' (l ++ l') := by
  refine ⟨List.nodup_append.mpr ⟨h.nodup, h'.nodup, fun a ha b hb hab => ?_⟩, fun a ha => ?_,
    fun a ha => h.later a (h'.later a ha), fun a ha hf => ?_⟩
  · subst hab
    exact h.apart a ha (h'.now a hb)
  · rcases List.mem_append.mp ha with ha | ha
    · exact h.now a ha
    · exact h.later a (h'.now a ha)
  · rcases List.mem_append.mp ha with ha | ha
    · exact h.apart a ha (h'.later a hf)
    · exact h'.apart a ha hf

theorem ownDraws_append (l l' : List RDraw) : ownDraws (l ++ l') = ownDraws l ++ ownDraws l' := by
  simp [ownDraws]

theorem fresh_draw (key : Option RKey) (s : RState) :
    Fresh s (drawFrom key s).2 (ownDraws [⟨(drawFrom key s).1, key.isSome⟩]) := by
  obtain ⟨lib, k, n⟩ := s
  cases lib with
  | torch =>
    refine ⟨by simp [ownDraws, drawFrom], ?_, ?_, ?_⟩
    · simp [ownDraws, drawFrom, RState.Future]
    · rintro (a | a) h
      · exact absurd h.1 (by simp [drawFrom])
      · exact ⟨rfl, by have := h.2; simp only [drawFrom] at this ⊢; omega⟩
    · simp [ownDraws, drawFrom, RState.Future]
  | jax =>
    cases key with
    | some k' => simpa [ownDraws, drawFrom] using Fresh.nil ⟨.jax, k, n⟩
    | none =>
      refine ⟨by simp [ownDraws, drawFrom], ?_, ?_, ?_⟩
      · intro a ha
        simp only [ownDraws, drawFrom, RKey.split, List.filter, List.map_cons, List.map_nil,
          Option.isSome_none, Bool.not_false, Bool.true_or, List.mem_singleton] at ha
        subst ha
        exact ⟨rfl, k, .refl, rfl⟩
      · rintro (a | a) h
        · obtain ⟨-, k', hk', rfl⟩ := h
          exact ⟨rfl, k', FstOf.trans (RKey.FstOf.refl.fst) hk', rfl⟩
        · exact absurd h.1 (by simp [drawFrom])
      · intro a ha h
        simp only [ownDraws, drawFrom, RKey.split, List.filter, List.map_cons, List.map_nil,
          Option.isSome_none, Bool.not_false, Bool.true_or, List.mem_singleton] at ha
        subst ha
        obtain ⟨-, k', hk', e⟩ := h
        have := FstOf.size hk'
        injection e with e
        subst e
        simp only [drawFrom, RKey.split, RKey.fst.sizeOf_spec] at this
        omega

theorem fresh_step (V : RValues) (c : RCall) (s : RState) :
    Fresh s (c.step V s).1 (ownDraws (c.step V s).2) := by
  cases c with
  | draw key => exact fresh_draw key s
  | cluster xs k key => exact fresh_draw key s
  | microlens rt br fov m n g key =>
    by_cases hm : m = "mcmc"
    · cases key with
      | none =>
        have h := (fresh_draw none s).append (fresh_draw none (drawFrom none s).2)
        rw [← ownDraws_append] at h
        simpa [RCall.step, microlensRun, hm] using h
      | some k =>
        cases hl : s.lib with
        | torch => simpa [RCall.step, microlensRun, hm, splitKey, hl, ownDraws] using Fresh.nil s
        | jax =>
          have h := (fresh_draw (some k.fst) s).append (fresh_draw (some k.snd) (drawFrom (some k.fst) s).2)
          rw [← ownDraws_append] at h
          simpa [RCall.step, microlensRun, hm, splitKey, hl, RKey.split] using h
    · simpa [RCall.step, microlensRun, hm, ownDraws] using Fresh.nil s

theorem fresh_run (V : RValues) (cs : List RCall) (s : RState) :
    (ownDraws (runCalls V cs s)).Nodup ∧ ∀ a ∈ ownDraws (runCalls V cs s), s.Future a := by
  induction cs generalizing s with
  | nil => simp [runCalls, ownDraws]
  | cons c cs ih =>
    have h := fresh_step V c s
    have h' := ih (c.step V s).1
    rw [runCalls, ownDraws_append]
    refine ⟨List.nodup_append.mpr ⟨h.nodup, h'.1, fun a ha b hb hab => ?_⟩, fun a ha => ?_⟩
    · subst hab
      exact h.apart a ha (h'.2 a hb)
    · rcases List.mem_append.mp ha with ha | ha
      · exact h.now a ha
      · exact h.later a (h'.2 a ha)

/-- Whatever sequence of `Microlens`, `cluster_means`, `rand`, `randn` and `randint` calls a program makes,
with keys or without: the draws it leaves to the library never use the same random numbers twice. -/
theorem C93_fresh (V : RValues) (cs : List RCall) (s : RState) :
    ((runCalls V cs s).filter fun d => !d.user).map RDraw.src |>.Nodup := by
  refine List.Nodup.sublist ?_ (fresh_run V cs s).1
  rw [ownDraws]
  refine List.Sublist.map _ ?_
  have : (runCalls V cs s).filter (fun d => !d.user) = ((runCalls V cs s).filter
      fun d => !d.user || d.src matches .gen _).filter (fun d => !d.user) := by
    rw [List.filter_filter]
    refine List.filter_congr fun d _ => ?_
    cases d.user <;> simp
  rw [this]
  exact List.filter_sublist

/-- On torch this holds of all draws. -/
theorem C93_fresh_torch (V : RValues) (cs : List RCall) (k : RKey) (n : ℕ) :
    ((runCalls V cs ⟨.torch, k, n⟩).map RDraw.src).Nodup := by
  have key : ∀ (cs : List RCall) (s : RState), s.lib = .torch →
      ∀ d ∈ runCalls V cs s, ∃ n, d.src = .gen n := by
    intro cs
    induction cs with
    | nil => intro s _ d hd; simp [runCalls] at hd
    | cons c cs ih =>
      intro s hs d hd
      have hdraw : ∀ key s, s.lib = .torch → (drawFrom key s).2.lib = .torch ∧
          ∃ n, (drawFrom key s).1 = .gen n := by
        rintro key ⟨lib, k, n⟩ h
        cases h
        exact ⟨rfl, n, rfl⟩
      have hstep : (c.step V s).1.lib = .torch ∧ ∀ d ∈ (c.step V s).2, ∃ n, d.src = .gen n := by
        cases c with
        | draw key => exact ⟨(hdraw key s hs).1, by simpa [RCall.step] using (hdraw key s hs).2⟩
        | cluster xs k key =>
          exact ⟨(hdraw key s hs).1, by simpa [RCall.step, clusterRun] using (hdraw key s hs).2⟩
        | microlens rt br fov m n g key =>
          by_cases hm : m = "mcmc"
          · cases key with
            | none =>
              have h1 := hdraw none s hs
              have h2 := hdraw none _ h1.1
              refine ⟨by simpa [RCall.step, microlensRun, hm] using h2.1, ?_⟩
              simpa [RCall.step, microlensRun, hm] using ⟨h1.2, h2.2⟩
            | some k => simp [RCall.step, microlensRun, hm, splitKey, hs]
          · simp [RCall.step, microlensRun, hm, hs]
      rw [runCalls] at hd
      rcases List.mem_append.mp hd with hd | hd
      · exact hstep.2 d hd
      · exact ih _ hstep.1 d hd
  have h := (fresh_run V cs ⟨.torch, k, n⟩).1
  rw [ownDraws, List.filter_eq_self.mpr] at h
  · exact h
  · intro d hd
    obtain ⟨n', hn⟩ := key cs _ rfl d hd
    simp [hn]

/-- The two coordinates of the Monte Carlo points of `Microlens` are drawn independently, on either library,
with a key or without. -/
theorem C93_coordinates (V : RValues) (rt : ℝ → ℝ → ℝ × ℝ) (br : ℝ → ℝ → ℝ) (fov : Fov) (n g : ℕ)
    (key : Option RKey) (s : RState) (hk : s.lib = .torch → key = none) :
    ∃ a b, a ≠ b ∧ (microlensRun V rt br fov "mcmc" n g key s).1
      = microlens rt br fov "mcmc" (V.unif a n) (V.unif b n) g := by
  obtain ⟨lib, k, p⟩ := s
  cases lib with
  | torch =>
    rw [hk rfl]
    exact ⟨.gen p, .gen (p + 1), by simp, by simp [microlensRun, drawFrom]⟩
  | jax =>
    cases key with
    | none => 
      refine ⟨.key k.snd, .key k.fst.snd, fun e => ?_, by simp [microlensRun, drawFrom, RKey.split]⟩
      have := congrArg sizeOf e
      simp at this
    | some k' => exact ⟨.key k'.fst, .key k'.snd, by simp, by simp [microlensRun, drawFrom, RKey.split, splitKey]⟩

/-- Under jax a call with a key can be repeated: its result does not depend on what was drawn before, and it
leaves the state of the library alone. -/
theorem C93_reproducible_partial (V : RValues) (k : RKey) (s s' : RState) (hs : s.lib = .jax)
    (hs' : s'.lib = .jax) :
    (∀ rt br fov m n g, (microlensRun V rt br fov m n g (some k) s).1
        = (microlensRun V rt br fov m n g (some k) s').1 ∧
      (microlensRun V rt br fov m n g (some k) s).2.1 = s) ∧
    ∀ (xs : List (List ℝ)) (c : ℕ), (clusterRun V xs c (some k) s).1 = (clusterRun V xs c (some k) s').1 ∧
      (clusterRun V xs c (some k) s).2.1 = s := by
  refine ⟨fun rt br fov m n g => ?_, fun xs c => ?_⟩
  · by_cases hm : m = "mcmc" <;> simp [microlensRun, hm, splitKey, hs, hs', drawFrom]
  · simp [clusterRun, drawFrom, hs, hs']

/-- A call with a key gives the same result whatever was drawn before, on either library. -/
def C93_statement : Prop :=
  ∀ (V : RValues) (k : RKey) (s s' : RState), s.lib = s'.lib →
    (∀ rt br fov m n g, (microlensRun V rt br fov m n g (some k) s).1
        = (microlensRun V rt br fov m n g (some k) s').1) ∧
    ∀ (xs : List (List ℝ)) (c : ℕ), (clusterRun V xs c (some k) s).1 = (clusterRun V xs c (some k) s').1

/-- Under torch `cluster_means` accepts a key and ignores it. -/
theorem C93_fails : ¬ C93_statement := by
  intro h
  have := (h ⟨fun _ _ => [], fun a b => match a with
    | .gen n => n % b
    | .key _ => 0⟩ (.seed 0) ⟨.torch, .seed 1, 0⟩ ⟨.torch, .seed 1, 1⟩ rfl).2 [[0], [1]] 1
  simp [clusterRun, drawFrom, clusterMeans, clusterLoop] at this

/-- Under torch `Microlens` does not accept one. -/
theorem C93_torch_key (V : RValues) (rt : ℝ → ℝ → ℝ × ℝ) (br : ℝ → ℝ → ℝ) (fov : Fov) (n g : ℕ) (k : RKey)
    (s : RState) (hs : s.lib = .torch) :
    (microlensRun V rt br fov "mcmc" n g (some k) s).1 = .error .notImplemented := by
  simp [microlensRun, splitKey, hs]

/-- Two estimates and a clustering in a row, under jax. -/
example (V : RValues) (rt : ℝ → ℝ → ℝ × ℝ) (br : ℝ → ℝ → ℝ) (fov : Fov) :
    runCalls V [.microlens rt br fov "mcmc" 10 10 none, .cluster [[0], [1]] 1 none,
      .microlens rt br fov "mcmc" 10 10 (some (.seed 7))] ⟨.jax, .seed 3, 0⟩
      = [⟨.key (.snd (.seed 3)), false⟩, ⟨.key (.snd (.fst (.seed 3))), false⟩,
        ⟨.key (.snd (.fst (.fst (.seed 3)))), false⟩, ⟨.key (.fst (.seed 7)), true⟩,
        ⟨.key (.snd (.seed 7)), true⟩] := by
  simp [runCalls, RCall.step, microlensRun, clusterRun, drawFrom, RKey.split, splitKey]

end Caustics

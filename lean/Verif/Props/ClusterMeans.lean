import Verif.Model.ClusterMeans
import Mathlib.Data.List.Basic
import Mathlib.Data.List.Nodup
import Mathlib.Data.Rat.Defs
import Mathlib.Algebra.Order.Field.Rat
import Mathlib.Data.Finset.Card
import Mathlib.Data.List.Dedup

/-! C49: the starting centres of `cluster_means`. -/

namespace Caustics

variable {K : Type*} [Field K] [LinearOrder K]

theorem argmaxFirst_lt : ∀ {l : List K} {i : ℕ}, argmaxFirst l = some i → i < l.length
  | [], _, h => by simp [argmaxFirst] at h
  | a :: l, i, h => by
    unfold argmaxFirst at h
    cases hl : argmaxFirst l with
    | none => rw [hl] at h; simp only [Option.some.injEq] at h; subst h; simp
    | some j =>
      rw [hl] at h
      have := argmaxFirst_lt hl
      simp only at h
      split at h <;> simp only [Option.some.injEq] at h <;> subst h <;> simp <;> omega

theorem argmaxFirst_none : ∀ {l : List K}, argmaxFirst l = none → l = []
  | [], _ => rfl
  | a :: l, h => by
    unfold argmaxFirst at h
    split at h
    · cases h
    · split at h <;> cases h

theorem argmaxFirst_max : ∀ {l : List K} {i : ℕ}, argmaxFirst l = some i → ∀ v ∈ l, v ≤ l.getD i 0
  | [], _, h => by simp [argmaxFirst] at h
  | a :: l, i, h => by
    unfold argmaxFirst at h
    intro v hv
    cases hl : argmaxFirst l with
    | none =>
      have := argmaxFirst_none hl
      subst this
      rw [hl] at h
      simp only [Option.some.injEq] at h
      subst h
      simp at hv
      simp [hv]
    | some j =>
      rw [hl] at h
      have hmax := argmaxFirst_max hl
      simp only at h
      split at h
      · rename_i hle
        simp only [Option.some.injEq] at h
        subst h
        rcases List.mem_cons.1 hv with rfl | hv
        · simp
        · simpa using (hmax v hv).trans hle
      · rename_i hle
        simp only [Option.some.injEq] at h
        subst h
        rcases List.mem_cons.1 hv with rfl | hv
        · simpa using (not_le.1 hle).le
        · simpa using hmax v hv

theorem unselected_mem {xs : List (List K)} {idxs : List ℕ} {x : List K} (h : x ∈ unselected xs idxs) : x ∈ xs := by
  unfold unselected at h
  rw [List.mem_map] at h
  obtain ⟨p, hp, rfl⟩ := h
  exact List.fst_mem_of_mem_zipIdx (List.mem_filter.1 hp).1

theorem unselected_length_le (xs : List (List K)) (idxs : List ℕ) : (unselected xs idxs).length ≤ xs.length := by
  unfold unselected
  rw [List.length_map]
  exact (List.length_filter_le _ _).trans (by simp)

/-- Fewer positions than points leave a point. -/
theorem unselected_ne_nil {xs : List (List K)} {idxs : List ℕ} (h : idxs.length < xs.length) :
    unselected xs idxs ≠ [] := by
  intro hc
  unfold unselected at hc
  rw [List.map_eq_nil_iff, List.filter_eq_nil_iff] at hc
  have hsub : Finset.range xs.length ⊆ idxs.toFinset := by
    intro i hi
    rw [Finset.mem_range] at hi
    have := hc (xs[i], i) (by rw [List.mem_zipIdx_iff_getElem?]; simp [hi])
    simpa using this
  have h1 := Finset.card_le_card hsub
  rw [Finset.card_range] at h1
  exact absurd (h1.trans (List.toFinset_card_le idxs)) (by omega)

theorem getD_mem' {l : List (List K)} {i : ℕ} (h : i < l.length) : l.getD i [] ∈ l := by
  rw [List.getD_eq_getElem?_getD, List.getElem?_eq_getElem h]
  exact List.getElem_mem h

theorem clusterLoop_ok (xs : List (List K)) : ∀ (n : ℕ) (s s' : List ℕ × List (List K)),
    clusterLoop xs n s = .ok s' → (∀ m ∈ s.2, m ∈ xs) →
      s'.2.length = s.2.length + n ∧ (∀ m ∈ s'.2, m ∈ xs) ∧ s.2 <+: s'.2
  | 0, s, s', h, hs => by
    simp only [clusterLoop, Except.ok.injEq] at h
    subst h
    exact ⟨rfl, hs, List.prefix_refl _⟩
  | n + 1, s, s', h, hs => by
    unfold clusterLoop clusterStep at h
    simp only at h
    cases ha : argmaxFirst ((unselected xs s.1).map fun x => closest2 x s.2) with
    | none => rw [ha] at h; cases h
    | some i =>
      rw [ha] at h
      simp only at h
      have hi := argmaxFirst_lt ha
      rw [List.length_map] at hi
      obtain ⟨h1, h2, h3⟩ := clusterLoop_ok xs n _ s' h (by
        intro m hm
        rw [List.mem_append, List.mem_singleton] at hm
        rcases hm with hm | rfl
        · exact hs m hm
        · exact unselected_mem (getD_mem' hi))
      refine ⟨by rw [h1]; simp; omega, h2, (List.prefix_append _ _).trans h3⟩

/-- What is returned are `k` of the data points (one if `k = 0`), the first of them the randomly chosen
one. -/
theorem C49_members {xs : List (List K)} {k r : ℕ} {ms : List (List K)} (h : clusterMeans xs k r = .ok ms) :
    ms.length = max 1 k ∧ (∀ m ∈ ms, m ∈ xs) ∧ ms.head? = xs[r]? := by
  unfold clusterMeans at h
  cases hr : xs[r]? with
  | none => rw [hr] at h; cases h
  | some x =>
    rw [hr] at h
    simp only at h
    cases hl : clusterLoop xs (k - 1) ([r], [x]) with
    | error e => rw [hl] at h; cases h
    | ok s =>
      rw [hl] at h
      simp only [Except.ok.injEq] at h
      subst h
      obtain ⟨h1, h2, t, h3⟩ := clusterLoop_ok xs _ _ _ hl (by
        intro m hm
        rw [List.mem_singleton] at hm
        rw [hm]
        exact List.mem_of_getElem? hr)
      refine ⟨by rw [h1]; simp; omega, h2, ?_⟩
      rw [← h3]
      simp

theorem clusterLoop_total (xs : List (List K)) : ∀ (n : ℕ) (s : List ℕ × List (List K)),
    s.1.length + n ≤ xs.length → ∃ s', clusterLoop xs n s = .ok s'
  | 0, s, _ => ⟨s, rfl⟩
  | n + 1, s, h => by
    unfold clusterLoop clusterStep
    simp only
    cases ha : argmaxFirst ((unselected xs s.1).map fun x => closest2 x s.2) with
    | none =>
      have := argmaxFirst_none ha
      rw [List.map_eq_nil_iff] at this
      exact absurd this (unselected_ne_nil (by omega))
    | some i =>
      simp only
      refine clusterLoop_total xs n _ ?_
      simp only [List.length_append, List.length_singleton]
      omega

/-- No error as long as `k` is at most the number of points. -/
theorem C49_total {xs : List (List K)} {k r : ℕ} (hk : k ≤ xs.length) (hr : r < xs.length) :
    ∃ ms, clusterMeans xs k r = .ok ms := by
  unfold clusterMeans
  rw [List.getElem?_eq_getElem hr]
  simp only
  obtain ⟨s, hs⟩ := clusterLoop_total xs (k - 1) ([r], [xs[r]]) (by simp; omega)
  rw [hs]
  exact ⟨_, rfl⟩

/-- The claim. -/
def C49_statement : Prop :=
  ∀ (xs : List (List ℚ)) (k r : ℕ) (ms : List (List ℚ)), xs.Nodup → k ≤ xs.length → r < xs.length →
    clusterMeans xs k r = .ok ms → ms.Nodup

/-- The first two centres do what the algorithm says: the second one is a point of largest distance from
the first, among the points at other positions.  Missing: the third and later centres, because the
position of the second one among the *unselected* points is remembered as if it were its position in
the data. -/
theorem C49_second_partial {xs : List (List K)} {r : ℕ} {ms : List (List K)} (h : clusterMeans xs 2 r = .ok ms) :
    ∃ a b, ms = [a, b] ∧ xs[r]? = some a ∧ (∃ j, j ≠ r ∧ xs[j]? = some b) ∧
      ∀ j x, j ≠ r → xs[j]? = some x → pointDist2 x a ≤ pointDist2 b a := by
  unfold clusterMeans at h
  cases hr : xs[r]? with
  | none => rw [hr] at h; cases h
  | some x =>
    rw [hr] at h
    simp only [clusterLoop, clusterStep, Nat.add_one_sub_one] at h
    cases ha : argmaxFirst ((unselected xs [r]).map fun y => closest2 y [x]) with
    | none => rw [ha] at h; cases h
    | some i =>
      rw [ha] at h
      simp only [Except.ok.injEq] at h
      have hi := argmaxFirst_lt ha
      rw [List.length_map] at hi
      have hmem := getD_mem' hi
      refine ⟨x, (unselected xs [r]).getD i [], h.symm, rfl, ?_, ?_⟩
      · unfold unselected at hmem
        rw [List.mem_map] at hmem
        obtain ⟨p, hp, hpe⟩ := hmem
        rw [List.mem_filter] at hp
        refine ⟨p.2, by simpa using hp.2, ?_⟩
        have := hp.1
        rw [List.mem_zipIdx_iff_getElem?] at this
        rw [this]
        exact congrArg some hpe
      · intro j y hj hy
        have hyu : y ∈ unselected xs [r] := by
          unfold unselected
          rw [List.mem_map]
          refine ⟨(y, j), List.mem_filter.2 ⟨?_, by simpa using hj⟩, rfl⟩
          rw [List.mem_zipIdx_iff_getElem?]
          exact hy
        have := argmaxFirst_max ha _ (List.mem_map_of_mem hyu)
        rw [List.getD_eq_getElem?_getD, List.getElem?_map, List.getElem?_eq_getElem hi] at this
        rw [List.getD_eq_getElem?_getD, List.getElem?_eq_getElem hi]
        simpa [closest2] using this

/-- The squared distance to the closest centre is at most that to any centre and is one of them. -/
theorem closest2_spec (x : List K) {ms : List (List K)} (h : ms ≠ []) :
    (∀ m ∈ ms, closest2 x ms ≤ pointDist2 x m) ∧ ∃ m ∈ ms, closest2 x ms = pointDist2 x m := by
  have fold : ∀ (l : List (List K)) (a : K),
      (l.foldl (fun acc m' => min acc (pointDist2 x m')) a ≤ a) ∧
      (∀ m ∈ l, l.foldl (fun acc m' => min acc (pointDist2 x m')) a ≤ pointDist2 x m) ∧
      (l.foldl (fun acc m' => min acc (pointDist2 x m')) a = a ∨
        ∃ m ∈ l, l.foldl (fun acc m' => min acc (pointDist2 x m')) a = pointDist2 x m) := by
    intro l
    induction l with
    | nil => intro a; simp
    | cons c l ih =>
      intro a
      obtain ⟨h1, h2, h3⟩ := ih (min a (pointDist2 x c))
      simp only [List.foldl_cons]
      refine ⟨h1.trans (min_le_left _ _), ?_, ?_⟩
      · intro m hm
        rcases List.mem_cons.1 hm with rfl | hm
        · exact h1.trans (min_le_right _ _)
        · exact h2 m hm
      · rcases h3 with h3 | ⟨m, hm, h3⟩
        · rw [h3]
          rcases min_choice a (pointDist2 x c) with h4 | h4
          · exact .inl h4
          · exact .inr ⟨c, List.mem_cons_self, h4⟩
        · exact .inr ⟨m, List.mem_cons_of_mem _ hm, h3⟩
  cases ms with
  | nil => exact absurd rfl h
  | cons c l =>
    obtain ⟨h1, h2, h3⟩ := fold l (pointDist2 x c)
    refine ⟨?_, ?_⟩
    · intro m hm
      rcases List.mem_cons.1 hm with rfl | hm
      · exact h1
      · exact h2 m hm
    · rcases h3 with h3 | ⟨m, hm, h3⟩
      · exact ⟨c, List.mem_cons_self, h3⟩
      · exact ⟨m, List.mem_cons_of_mem _ hm, h3⟩

theorem clusterLoop_greedy (xs : List (List K)) : ∀ (n : ℕ) (s s' : List ℕ × List (List K)),
    clusterLoop xs n s = .ok s' → s.1.length = s.2.length → s.2 ≠ [] →
      ∀ i, s.2.length ≤ i → i < s'.2.length → ∃ E : List ℕ, E.length = i ∧ ∀ j x, j ∉ E → xs[j]? = some x →
        ∃ m ∈ s'.2.take i, ∀ m' ∈ s'.2.take i, pointDist2 x m ≤ pointDist2 (s'.2.getD i []) m'
  | 0, s, s', h, _, _ => by
    intro i h1 h2
    simp only [clusterLoop, Except.ok.injEq] at h
    subst h
    omega
  | n + 1, s, s', h, hlen, hne => by
    intro i h1 h2
    unfold clusterLoop clusterStep at h
    simp only at h
    cases ha : argmaxFirst ((unselected xs s.1).map fun x => closest2 x s.2) with
    | none => rw [ha] at h; cases h
    | some a =>
      rw [ha] at h
      simp only at h
      by_cases hi : i = s.2.length
      · subst hi
        have ha' := argmaxFirst_lt ha
        rw [List.length_map] at ha'
        have hpre : s.2 ++ [(unselected xs s.1).getD a []] <+: s'.2 := by
          clear h2 h1
          have : ∀ (n : ℕ) (s s' : List ℕ × List (List K)), clusterLoop xs n s = .ok s' → s.2 <+: s'.2 := by
            intro n
            induction n with
            | zero => intro s s' h; simp only [clusterLoop, Except.ok.injEq] at h; rw [h]
            | succ n ih =>
              intro s s' h
              unfold clusterLoop clusterStep at h
              simp only at h
              cases ha : argmaxFirst ((unselected xs s.1).map fun x => closest2 x s.2) with
              | none => rw [ha] at h; cases h
              | some i =>
                rw [ha] at h
                exact (List.prefix_append _ _).trans (ih _ _ h)
          exact this n _ _ h
        obtain ⟨t, ht⟩ := hpre
        have htake : s'.2.take s.2.length = s.2 := by rw [← ht]; simp
        have hget : s'.2.getD s.2.length [] = (unselected xs s.1).getD a [] := by rw [← ht]; simp
        refine ⟨s.1, hlen, ?_⟩
        intro j x hj hx
        rw [htake, hget]
        have hxu : x ∈ unselected xs s.1 := by
          unfold unselected
          rw [List.mem_map]
          refine ⟨(x, j), List.mem_filter.2 ⟨?_, by simpa using hj⟩, rfl⟩
          rw [List.mem_zipIdx_iff_getElem?]
          exact hx
        have hmax := argmaxFirst_max ha _ (List.mem_map_of_mem hxu)
        rw [List.getD_eq_getElem?_getD, List.getElem?_map, List.getElem?_eq_getElem ha'] at hmax
        rw [List.getD_eq_getElem?_getD, List.getElem?_eq_getElem ha']
        simp only [Option.map_some, Option.getD_some] at hmax ⊢
        obtain ⟨m, hm, hme⟩ := (closest2_spec x hne).2
        refine ⟨m, hm, fun m' hm' => ?_⟩
        rw [← hme]
        exact hmax.trans ((closest2_spec _ hne).1 m' hm')
      · exact clusterLoop_greedy xs n _ s' h (by simp [hlen]) (by simp) i (by simp; omega) h2

/-- Every centre after the first is at least as far from all earlier centres as any data point is from the
earlier centre closest to it, except for at most as many data points as there are earlier centres.
Missing: that the excepted points are the earlier centres, because a position among the *unselected*
points is remembered as if it were a position in the data. -/
theorem C49_greedy_partial {xs : List (List K)} {k r : ℕ} {ms : List (List K)} (h : clusterMeans xs k r = .ok ms)
    {i : ℕ} (h0 : 0 < i) (hi : i < ms.length) :
    ∃ E : List ℕ, E.length = i ∧ ∀ j x, j ∉ E → xs[j]? = some x →
      ∃ m ∈ ms.take i, ∀ m' ∈ ms.take i, (List.zipWith (fun u v => (u - v) ^ 2) x m).sum ≤
        (List.zipWith (fun u v => (u - v) ^ 2) (ms.getD i []) m').sum := by
  unfold clusterMeans at h
  cases hr : xs[r]? with
  | none => rw [hr] at h; cases h
  | some x =>
    rw [hr] at h
    simp only at h
    cases hl : clusterLoop xs (k - 1) ([r], [x]) with
    | error e => rw [hl] at h; cases h
    | ok s =>
      rw [hl] at h
      simp only [Except.ok.injEq] at h
      subst h
      exact clusterLoop_greedy xs _ _ _ hl rfl (by simp) i (show 1 ≤ i from h0) hi

/-- Five points on a line: 10, then 6 (at distance four from its closest centre, further than 3). -/
example : clusterMeans [[0], [10], [3], [6], [(1 : ℚ)]] 2 0 = .ok [[0], [10]] ∧
    clusterMeans [[10], [0], [3], [6], [(1 : ℚ)]] 3 0 = .ok [[10], [0], [6]] := by decide +kernel

/-- Three different points on a line: the third one is chosen twice and the second one never. -/
theorem C49_fails : ¬ C49_statement := by
  intro h
  have := h [[0], [1], [3]] 3 0 [[0], [3], [3]] (by decide +kernel) (by simp) (by simp) (by decide +kernel)
  exact absurd this (by decide +kernel)

/-- The same points with two centres. -/
example : clusterMeans [[0], [1], [3]] 2 0 = .ok [[0], [(3 : ℚ)]] := by decide +kernel

/-- More centres than points: an error once no position is left. -/
example : clusterMeans [[0], [1], [(3 : ℚ)]] 4 2 = .ok [[3], [0], [1], [1]] ∧
    clusterMeans [[(0 : ℚ)]] 2 0 = .error .valueError := by decide +kernel

end Caustics

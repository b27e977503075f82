import Verif.Spec.Multiplane
import Mathlib.Tactic.FieldSimp
import Mathlib.Tactic.Ring
import Mathlib.Tactic.Linarith

namespace Caustics

variable {K : Type} [Field K] [LinearOrder K]

/-- The loop over a list that is already in order: `z_next` is simply the next lens. -/
def mpChain (e : MPEnv K) (zs : K) (sh ge : Bool) : List (MPlane K) → MPState K → MPState K
  | [], s => s
  | l :: ls, s =>
    mpChain e zs sh ge ls (mpBody e zs sh ge l ((ls.head?.map MPlane.z).getD zs) s)

theorem lensPlanes_sorted (lenses : List (MPlane K)) (h : SortedByZ lenses) :
    lensPlanes (lenses.map MPlane.z) = List.range lenses.length := by
  unfold lensPlanes
  have hp : ((lenses.map MPlane.z).zipIdx).Pairwise (fun p q => p.1 ≤ q.1) := by
    rw [List.pairwise_iff_getElem]
    intro i j hi hj hij
    simp only [List.getElem_zipIdx, List.getElem_map]
    have := (List.pairwise_iff_getElem.mp h) i j (by simpa using hi) (by simpa using hj) hij
    simpa using this
  rw [hp.insertionSort_eq]
  rw [List.zipIdx_map_snd]
  simp [List.range_eq_range']

theorem mpLoop_sorted (e : MPEnv K) (zs : K) (sh ge : Bool) (lenses : List (MPlane K))
    (k : Nat) (hk : k ≤ lenses.length) (s : MPState K) :
    mpLoop e zs sh ge lenses (lenses.length - 1) (List.range' (lenses.length - k) k) s
      = some (mpChain e zs sh ge (lenses.drop (lenses.length - k)) s) := by
  induction k generalizing s with
  | zero => simp [mpLoop, mpChain]
  | succ k ih =>
    have hlt : lenses.length - (k + 1) < lenses.length := by omega
    rw [List.range'_succ]
    have hnext : lenses.length - (k + 1) + 1 = lenses.length - k := by omega
    rw [hnext]
    unfold mpLoop
    rw [List.getElem?_eq_getElem hlt]
    have hdrop : lenses.drop (lenses.length - (k + 1))
        = lenses[lenses.length - (k + 1)] :: lenses.drop (lenses.length - k) := by
      rw [List.drop_eq_getElem_cons hlt, hnext]
    rw [hdrop, mpChain]
    by_cases hk0 : k = 0
    · subst hk0
      have h1 : ¬ (lenses.length - (0 + 1) ≠ lenses.length - 1) := by omega
      rw [if_neg h1]
      simp only
      rw [ih (by omega)]
      simp
    · have h1 : lenses.length - (k + 1) ≠ lenses.length - 1 := by omega
      have h2 : lenses.length - k < lenses.length := by omega
      rw [if_pos h1, hnext]
      have : (lenses.map MPlane.z)[lenses.length - k]? = some lenses[lenses.length - k].z := by
        simp [h2]
      rw [this]
      simp only
      rw [ih (by omega)]
      congr 3
      rw [List.head?_drop, List.getElem?_eq_getElem h2]
      rfl

/-- On an ordered, non-empty list the helper runs the chain. -/
theorem mpHelper_sorted (e : MPEnv K) (zs : K) (sh ge : Bool) (l : MPlane K)
    (ls : List (MPlane K)) (h : SortedByZ (l :: ls)) (x y : K) :
    mpHelper e zs sh ge (l :: ls) x y
      = some (
        let s := mpChain e zs sh ge (l :: ls)
          { X := x * e.arcsecToRad * e.dist l.z, Y := y * e.arcsecToRad * e.dist l.z,
            thx := x, thy := y, td := 0 }
        ((s.X * e.radToArcsec / e.dist zs, s.Y * e.radToArcsec / e.dist zs), s.td)) := by
  unfold mpHelper
  simp only [lensPlanes_sorted _ h]
  have hlen : (l :: ls).length = ls.length + 1 := rfl
  have h1 : (List.range (l :: ls).length).head? = some 0 := by
    rw [hlen, List.range_succ_eq_map]; rfl
  have h2 : (List.range (l :: ls).length).getLast? = some ((l :: ls).length - 1) := by
    rw [hlen, List.range_succ]; simp
  rw [h1, h2]
  have h3 : ((l :: ls).map MPlane.z)[0]? = some l.z := rfl
  simp only [h3]
  have h4 := mpLoop_sorted e zs sh ge (l :: ls) (l :: ls).length le_rfl
    { X := x * e.arcsecToRad * e.dist l.z, Y := y * e.arcsecToRad * e.dist l.z,
            thx := x, thy := y, td := 0 }
  rw [Nat.sub_self, ← List.range_eq_range', List.drop_zero] at h4
  rw [h4]

/-- Scalar weighted sum of the deflections of some lenses. -/
def wsum (w : MPlane K → K) (ls : List (MPlane K)) : K := (ls.map w).sum

theorem wsum_filter (w : MPlane K → K) (ls : List (MPlane K)) (p : MPlane K → Bool)
    (h : ∀ l ∈ ls, p l = false → w l = 0) : wsum w (ls.filter p) = wsum w ls := by
  induction ls with
  | nil => rfl
  | cons l ls ih =>
    have ih' := ih (fun m hm => h m (by simp [hm]))
    unfold wsum at *
    cases hp : p l with
    | true => rw [List.filter_cons_of_pos hp, List.map_cons, List.sum_cons, ih', List.map_cons,
        List.sum_cons]
    | false =>
      rw [List.filter_cons_of_neg (by simp [hp]), ih', List.map_cons, List.sum_cons,
        h l (by simp) hp, zero_add]

/-- Lenses behind `z` do not enter the equation at `z`. -/
theorem ray_sum_prefix (dist : K → K) (pre suf : List (MPlane K)) (z : K)
    (hpre : ∀ l ∈ pre, l.z ≤ z) (hsuf : ∀ l ∈ suf, z ≤ l.z) (f : MPlane K → K) :
    (((pre ++ suf).filter fun l => l.z < z).map fun l => (dist z - dist l.z) / dist z * f l).sum
      = (pre.map fun l => (dist z - dist l.z) / dist z * f l).sum := by
  have h1 : suf.filter (fun l => l.z < z) = [] := by
    rw [List.filter_eq_nil_iff]
    intro l hl
    simpa using hsuf l hl
  rw [List.filter_append, h1, List.append_nil]
  apply wsum_filter (fun l => (dist z - dist l.z) / dist z * f l)
  intro l hl hlz
  have : l.z = z := le_antisymm (hpre l hl) (by simpa using hlz)
  simp [this]

/-- The loop invariant: where the ray is and which way it goes after the lenses `pre`, with the
lenses `suf` still to come. -/
def RayInv (e : MPEnv K) (zs : K) (x y : K) (beta : K → K × K) (pre suf : List (MPlane K))
    (s : MPState K) : Prop :=
  (let z := (suf.head?.map MPlane.z).getD zs
   s.X * e.radToArcsec = e.dist z * (beta z).1 ∧ s.Y * e.radToArcsec = e.dist z * (beta z).2) ∧
  s.thx = x - (pre.map fun l => (l.alpha (beta l.z).1 (beta l.z).2).1).sum ∧
  s.thy = y - (pre.map fun l => (l.alpha (beta l.z).1 (beta l.z).2).2).sum

theorem body_inv (e : MPEnv K) (zs : K) (sh ge : Bool) (hr : e.radToArcsec ≠ 0)
    (all : List (MPlane K)) (hsort : SortedByZ all) (hb : Between e.dist all zs) (x y : K)
    (beta : K → K × K) (hray : IsRay e.dist all x y beta) (l : MPlane K)
    (ls pre : List (MPlane K)) (s : MPState K) (hall : all = pre ++ l :: ls)
    (hinv : RayInv e zs x y beta pre (l :: ls) s) :
    s.X * e.radToArcsec / e.dist l.z = (beta l.z).1 ∧
    s.Y * e.radToArcsec / e.dist l.z = (beta l.z).2 ∧
    all = (pre ++ [l]) ++ ls ∧
    RayInv e zs x y beta (pre ++ [l]) ls
      (mpBody e zs sh ge l ((ls.head?.map MPlane.z).getD zs) s) := by
  obtain ⟨hX, hthx, hthy⟩ := hinv
  simp only [List.head?_cons, Option.map_some, Option.getD_some] at hX
  have hl : l ∈ all := by rw [hall]; simp
  have hlz := hb.1 l hl
  have hD : e.dist l.z ≠ 0 := hb.2.2 _ hlz.1
  have hpx : s.X * e.radToArcsec / e.dist l.z = (beta l.z).1 := by
    rw [hX.1]; field_simp
  have hpy : s.Y * e.radToArcsec / e.dist l.z = (beta l.z).2 := by
    rw [hX.2]; field_simp
  set zN := (ls.head?.map MPlane.z).getD zs with hzN
  -- facts about the next redshift
  have hsort' : (pre ++ l :: ls).Pairwise (fun l m => l.z ≤ m.z) := by
    rw [← hall]; exact hsort
  have hpw := List.pairwise_append.mp hsort'
  have hpre_l : ∀ m ∈ pre, m.z ≤ l.z := fun m hm => hpw.2.2 m hm l (by simp)
  have hls_l : ∀ m ∈ ls, l.z ≤ m.z := (List.pairwise_cons.mp hpw.2.1).1
  have hzN_ge : l.z ≤ zN := by
    cases ls with
    | nil => simpa [hzN] using hlz.2.le
    | cons m ms => simpa [hzN] using hls_l m (by simp)
  have hzN_le : ∀ m ∈ ls, zN ≤ m.z := by
    cases ls with
    | nil => simp
    | cons m ms =>
      intro k hk
      have := (List.pairwise_cons.mp hpw.2.1).2
      rcases List.mem_cons.mp hk with rfl | hk
      · simp [hzN]
      · simpa [hzN] using (List.pairwise_cons.mp this).1 k hk
  have hzN_pos : 0 < zN := lt_of_lt_of_le hlz.1 hzN_ge
  have hDN : e.dist zN ≠ 0 := hb.2.2 _ hzN_pos
  have hpre_N : ∀ m ∈ pre ++ [l], m.z ≤ zN := by
    intro m hm
    rcases List.mem_append.mp hm with hm | hm
    · exact (hpre_l m hm).trans hzN_ge
    · simp at hm; rw [hm]; exact hzN_ge
  have hall' : all = (pre ++ [l]) ++ ls := by rw [hall]; simp
  have hall'' : all = pre ++ (l :: ls) := hall
  -- the equation at the current and the next redshift
  have heq_l := hray l.z hlz.1
  have heq_N := hray zN hzN_pos
  rw [hall'', ray_sum_prefix e.dist pre (l :: ls) l.z hpre_l
      (by intro m hm; rcases List.mem_cons.mp hm with rfl | hm; exacts [le_rfl, hls_l m hm]),
    ray_sum_prefix e.dist pre (l :: ls) l.z hpre_l
      (by intro m hm; rcases List.mem_cons.mp hm with rfl | hm; exacts [le_rfl, hls_l m hm])]
    at heq_l
  rw [hall', ray_sum_prefix e.dist (pre ++ [l]) ls zN hpre_N hzN_le,
    ray_sum_prefix e.dist (pre ++ [l]) ls zN hpre_N hzN_le] at heq_N
  -- weights: pull the division out of the sums
  have hw : ∀ (z : K) (hz : e.dist z ≠ 0) (p : List (MPlane K)) (f : MPlane K → K),
      e.dist z * (p.map fun m => (e.dist z - e.dist m.z) / e.dist z * f m).sum
        = (p.map fun m => (e.dist z - e.dist m.z) * f m).sum := by
    intro z hz p f
    induction p with
    | nil => simp
    | cons m ms ih =>
      rw [List.map_cons, List.sum_cons, mul_add, ih, List.map_cons, List.sum_cons]
      congr 1
      field_simp
  have hstep : ∀ (p : List (MPlane K)) (f : MPlane K → K),
      (p.map fun m => (e.dist zN - e.dist m.z) * f m).sum
        = (p.map fun m => (e.dist l.z - e.dist m.z) * f m).sum
          + (e.dist zN - e.dist l.z) * (p.map f).sum := by
    intro p f
    induction p with
    | nil => simp
    | cons m ms ih =>
      simp only [List.map_cons, List.sum_cons, ih]
      ring
  have key : ∀ (x0 X th bl bN : K) (f : MPlane K → K),
      bl = x0 - (pre.map fun m => (e.dist l.z - e.dist m.z) / e.dist l.z * f m).sum →
      bN = x0 - ((pre ++ [l]).map fun m => (e.dist zN - e.dist m.z) / e.dist zN * f m).sum →
      X * e.radToArcsec = e.dist l.z * bl → th = x0 - (pre.map f).sum →
      (X + e.dist12 l.z zN * (th - f l) * e.arcsecToRad) * e.radToArcsec = e.dist zN * bN := by
    intro x0 X th bl bN f hbl hbN hX hth
    have e1 : e.dist l.z * bl = e.dist l.z * x0
        - (pre.map fun m => (e.dist l.z - e.dist m.z) * f m).sum := by
      rw [hbl, mul_sub, hw _ hD]
    have e2 : e.dist zN * bN = e.dist zN * x0
        - ((pre ++ [l]).map fun m => (e.dist zN - e.dist m.z) * f m).sum := by
      rw [hbN, mul_sub, hw _ hDN]
    have hir : e.arcsecToRad * e.radToArcsec = 1 := by
      unfold MPEnv.arcsecToRad; field_simp
    rw [add_mul, hX, e1, e2, hstep, List.map_append, List.sum_append, List.map_append,
      List.sum_append, mul_assoc _ e.arcsecToRad, hir, hth]
    simp only [List.map_cons, List.map_nil, List.sum_cons, List.sum_nil, MPEnv.dist12]
    ring
  refine ⟨hpx, hpy, hall', ?_, ?_, ?_⟩
  · refine ⟨?_, ?_⟩
    · simp only [mpBody, hpx, hpy]
      exact key x s.X s.thx _ _ (fun m => (m.alpha (beta m.z).1 (beta m.z).2).1)
        heq_l.1 heq_N.1 hX.1 hthx
    · simp only [mpBody, hpx, hpy]
      exact key y s.Y s.thy _ _ (fun m => (m.alpha (beta m.z).1 (beta m.z).2).2)
        heq_l.2 heq_N.2 hX.2 hthy
  · simp only [mpBody, hpx, hpy, hthx, List.map_append, List.sum_append, List.map_cons,
      List.map_nil, List.sum_cons, List.sum_nil]
    ring
  · simp only [mpBody, hpx, hpy, hthy, List.map_append, List.sum_append, List.map_cons,
      List.map_nil, List.sum_cons, List.sum_nil]
    ring


theorem chain_inv (e : MPEnv K) (zs : K) (sh ge : Bool) (hr : e.radToArcsec ≠ 0)
    (all : List (MPlane K)) (hsort : SortedByZ all) (hb : Between e.dist all zs) (x y : K)
    (beta : K → K × K) (hray : IsRay e.dist all x y beta) :
    ∀ (suf pre : List (MPlane K)) (s : MPState K), all = pre ++ suf →
      RayInv e zs x y beta pre suf s →
      (mpChain e zs sh ge suf s).X * e.radToArcsec = e.dist zs * (beta zs).1 ∧
      (mpChain e zs sh ge suf s).Y * e.radToArcsec = e.dist zs * (beta zs).2 := by
  intro suf
  induction suf with
  | nil =>
    intro pre s _ hX
    simpa [mpChain] using hX.1
  | cons l ls ih =>
    intro pre s hall hinv
    obtain ⟨_, _, hall', hinv'⟩ := body_inv e zs sh ge hr all hsort hb x y beta hray l ls pre s
      hall hinv
    exact ih _ _ hall' hinv'

/-- Time delay picked up at one plane. -/
def delayTerm (e : MPEnv K) (zs : K) (sh ge : Bool) (beta : K → K × K) (l : MPlane K)
    (zNext : K) : K :=
  let tau := (1 + l.z) * e.dist l.z * e.dist zNext
    / (e.dist12 l.z zNext * e.cMpcS) / e.daysToSeconds
  let bet := e.dist12 l.z zNext * e.dist zs / (e.dist zNext * e.dist12 l.z zs)
  let al := l.alpha (beta l.z).1 (beta l.z).2
  (if sh then -(tau * bet * e.arcsecToRad ^ 2 * l.psi (beta l.z).1 (beta l.z).2) else 0)
    + (if ge then tau * e.arcsecToRad ^ 2 * (1 / 2) * (al.1 ^ 2 + al.2 ^ 2) else 0)

theorem chain_td (e : MPEnv K) (zs : K) (sh ge : Bool) (hr : e.radToArcsec ≠ 0)
    (all : List (MPlane K)) (hsort : SortedByZ all) (hb : Between e.dist all zs) (x y : K)
    (beta : K → K × K) (hray : IsRay e.dist all x y beta) :
    ∀ (suf pre : List (MPlane K)) (s : MPState K), all = pre ++ suf →
      RayInv e zs x y beta pre suf s →
      (mpChain e zs sh ge suf s).td = s.td
        + ((suf.zip (suf.tail.map MPlane.z ++ [zs])).map fun p =>
            delayTerm e zs sh ge beta p.1 p.2).sum := by
  intro suf
  induction suf with
  | nil =>
    intro pre s _ hX
    simp [mpChain]
  | cons l ls ih =>
    intro pre s hall hinv
    obtain ⟨hpx, hpy, hall', hinv'⟩ := body_inv e zs sh ge hr all hsort hb x y beta hray l ls pre
      s hall hinv
    rw [mpChain, ih _ _ hall' hinv']
    have hz : ((l :: ls).zip ((l :: ls).tail.map MPlane.z ++ [zs]))
        = (l, (ls.head?.map MPlane.z).getD zs) :: ls.zip (ls.tail.map MPlane.z ++ [zs]) := by
      cases ls <;> rfl
    rw [hz, List.map_cons, List.sum_cons, ← add_assoc]
    congr 1
    simp only [mpBody, hpx, hpy, delayTerm]
    cases sh <;> cases ge <;> simp <;> ring

/-- Existence of the ray, by recursion on the number of lenses in front of `z`. -/
theorem ray_exists (dist : K → K) (lenses : List (MPlane K)) (x y : K) :
    ∃ beta, IsRay dist lenses x y beta := by
  classical
  have key : ∀ n : Nat, ∃ beta : K → K × K, ∀ z,
      (lenses.filter fun l => l.z < z).length < n →
      (beta z).1 = x - ((lenses.filter fun l => l.z < z).map fun l =>
        (dist z - dist l.z) / dist z * (l.alpha (beta l.z).1 (beta l.z).2).1).sum ∧
      (beta z).2 = y - ((lenses.filter fun l => l.z < z).map fun l =>
        (dist z - dist l.z) / dist z * (l.alpha (beta l.z).1 (beta l.z).2).2).sum := by
    intro n
    induction n with
    | zero => exact ⟨fun _ => (0, 0), fun z hz => absurd hz (by omega)⟩
    | succ n ih =>
      obtain ⟨b, hb⟩ := ih
      -- redefine where exactly `n` lenses are in front
      let b' : K → K × K := fun z =>
        if (lenses.filter fun l => l.z < z).length < n then b z else
        (x - ((lenses.filter fun l => l.z < z).map fun l =>
          (dist z - dist l.z) / dist z * (l.alpha (b l.z).1 (b l.z).2).1).sum,
         y - ((lenses.filter fun l => l.z < z).map fun l =>
          (dist z - dist l.z) / dist z * (l.alpha (b l.z).1 (b l.z).2).2).sum)
      have hfront : ∀ z, (lenses.filter fun l => l.z < z).length < n + 1 →
          ∀ l ∈ lenses.filter (fun l => l.z < z), b' l.z = b l.z := by
        intro z hz l hl
        have hl' := List.mem_filter.mp hl
        have hlz : l.z < z := by simpa using hl'.2
        have : (lenses.filter fun m => m.z < l.z).length < n := by
          have hsub : ((lenses.filter fun m => m.z < l.z)).length
              < (lenses.filter fun m => m.z < z).length := by
            have h1 : lenses.filter (fun m => decide (m.z < l.z))
                = (lenses.filter fun m => decide (m.z < z)).filter fun m => decide (m.z < l.z) := by
              rw [List.filter_filter]
              congr 1
              funext m
              by_cases hm : m.z < l.z
              · simp [hm, hm.trans hlz]
              · simp [hm]
            rw [h1]
            apply List.length_filter_lt_length_iff_exists.mpr
            exact ⟨l, hl, by simp⟩
          omega
        simp only [b']
        rw [if_pos this]
      refine ⟨b', fun z hz => ?_⟩
      have hcongr : ∀ (g : K × K → K),
          ((lenses.filter fun l => l.z < z).map fun l =>
            (dist z - dist l.z) / dist z * g (l.alpha (b' l.z).1 (b' l.z).2))
          = ((lenses.filter fun l => l.z < z).map fun l =>
            (dist z - dist l.z) / dist z * g (l.alpha (b l.z).1 (b l.z).2)) := by
        intro g
        apply List.map_congr_left
        intro l hl
        rw [hfront z hz l hl]
      rw [hcongr Prod.fst, hcongr Prod.snd]
      by_cases hzn : (lenses.filter fun l => l.z < z).length < n
      · have : b' z = b z := by simp only [b']; rw [if_pos hzn]
        rw [this]
        exact hb z hzn
      · constructor <;> (simp only [b']; rw [if_neg hzn])
  obtain ⟨b, hb⟩ := key (lenses.length + 1)
  exact ⟨b, fun z _ => hb z (Nat.lt_succ_of_le (List.length_filter_le _ _))⟩

/-- Uniqueness of the ray at positive redshifts. -/
theorem ray_unique (dist : K → K) (lenses : List (MPlane K)) (hpos : ∀ l ∈ lenses, 0 < l.z)
    (x y : K) (b b' : K → K × K) (h : IsRay dist lenses x y b) (h' : IsRay dist lenses x y b') :
    ∀ z, 0 < z → b z = b' z := by
  have key : ∀ n : Nat, ∀ z, 0 < z → (lenses.filter fun l => l.z < z).length < n →
      b z = b' z := by
    intro n
    induction n with
    | zero => intro z _ hz; exact absurd hz (by omega)
    | succ n ih =>
      intro z hz hn
      have hfront : ∀ l ∈ lenses.filter (fun l => l.z < z), b l.z = b' l.z := by
        intro l hl
        have hl' := List.mem_filter.mp hl
        have hlz : l.z < z := by simpa using hl'.2
        apply ih _ (hpos l hl'.1)
        have hsub : ((lenses.filter fun m => m.z < l.z)).length
            < (lenses.filter fun m => m.z < z).length := by
          have h1 : lenses.filter (fun m => decide (m.z < l.z))
              = (lenses.filter fun m => decide (m.z < z)).filter fun m => decide (m.z < l.z) := by
            rw [List.filter_filter]
            congr 1
            funext m
            by_cases hm : m.z < l.z
            · simp [hm, hm.trans hlz]
            · simp [hm]
          rw [h1]
          apply List.length_filter_lt_length_iff_exists.mpr
          exact ⟨l, hl, by simp⟩
        omega
      have hcongr : ∀ (g : K × K → K),
          ((lenses.filter fun l => l.z < z).map fun l =>
            (dist z - dist l.z) / dist z * g (l.alpha (b' l.z).1 (b' l.z).2))
          = ((lenses.filter fun l => l.z < z).map fun l =>
            (dist z - dist l.z) / dist z * g (l.alpha (b l.z).1 (b l.z).2)) := by
        intro g
        apply List.map_congr_left
        intro l hl
        rw [hfront l hl]
      have e1 := h z hz
      have e2 := h' z hz
      rw [hcongr Prod.fst, hcongr Prod.snd] at e2
      exact Prod.ext (e1.1.trans e2.1.symm) (e1.2.trans e2.2.symm)
  intro z hz
  exact key _ z hz (Nat.lt_succ_self _)

end Caustics

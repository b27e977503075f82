import Verif.Model.InPlace
import Mathlib.Algebra.Order.Ring.Rat
import Mathlib.Algebra.BigOperators.Group.List.Basic
import Mathlib.Data.List.Forall2
import Mathlib.Data.List.Nodup
import Mathlib.Tactic.Ring
import Mathlib.Tactic.NormNum

/-! C122: writing to arrays. -/

namespace Caustics

variable {K : Type}

/-- A call leaves every array that existed before it as it was, also if it raises. -/
def Keeps {α : Type} (m : HeapM K α) : Prop := ∀ h, h <+: (m h).2

/-- The array returned is a new one: writing to it later changes no array that existed before the call. -/
def NewArray (m : HeapM K Ref) : Prop := ∀ h r, (m h).1 = .ok r → h.length ≤ r

instance : LawfulMonad (HeapM K) := LawfulMonad.mk' _
  (id_map := by
    intro α m; funext h
    show (match m h with
      | (.ok a, h') => (.ok a, h')
      | (.error e, h') => (.error e, h')) = m h
    rcases m h with ⟨_ | _, _⟩ <;> rfl)
  (pure_bind := fun _ _ => rfl)
  (bind_assoc := by
    intro α β γ m f g; funext h
    show (match (match m h with
      | (.ok a, h') => f a h'
      | (.error e, h') => (.error e, h')) with
      | (.ok a, h') => g a h'
      | (.error e, h') => (.error e, h')) = (match m h with
      | (.ok a, h') => (match f a h' with
        | (.ok a, h') => g a h'
        | (.error e, h') => (.error e, h'))
      | (.error e, h') => (.error e, h'))
    rcases m h with ⟨_ | _, _⟩ <;> rfl)

/-- Bookkeeping for the proofs: the first `n` arrays are left alone, and the result satisfies `Q`. -/
def LeavesFirst {α : Type} (n : ℕ) (m : HeapM K α) (Q : α → Prop) : Prop :=
  ∀ h, n ≤ h.length → (m h).2.take n = h.take n ∧ n ≤ (m h).2.length ∧ ∀ a, (m h).1 = .ok a → Q a

theorem LeavesFirst.keeps {α : Type} {m : HeapM K α} {Q : ℕ → α → Prop} (hm : ∀ n, LeavesFirst n m (Q n)) : Keeps m := by
  intro h
  obtain ⟨h1, h2, -⟩ := hm h.length h le_rfl
  rw [List.take_length] at h1
  exact List.prefix_iff_eq_take.2 h1.symm

theorem LeavesFirst.keeps_new {m : HeapM K Ref} (hm : ∀ n, LeavesFirst n m (n ≤ ·)) : Keeps m ∧ NewArray m :=
  ⟨LeavesFirst.keeps hm, fun h r hr => (hm h.length h le_rfl).2.2 r hr⟩

theorem Keeps.leaves {α : Type} {m : HeapM K α} (hm : Keeps m) (n : ℕ) : LeavesFirst n m fun _ => True := by
  intro h hn
  obtain ⟨t, ht⟩ := hm h
  rw [← ht]
  refine ⟨?_, by simp; omega, fun _ _ => trivial⟩
  rw [List.take_append_of_le_length hn]

theorem LeavesFirst.bind {α β : Type} {n : ℕ} {m : HeapM K α} {f : α → HeapM K β} {Q : α → Prop} {R : β → Prop}
    (hm : LeavesFirst n m Q) (hf : ∀ a, Q a → LeavesFirst n (f a) R) : LeavesFirst n (m >>= f) R := by
  intro h hn
  obtain ⟨m1, m2, m3⟩ := hm h hn
  show (match m h with
    | (.ok a, h') => f a h'
    | (.error e, h') => (.error e, h')).2.take n = _ ∧ _ ≤ (match m h with
    | (.ok a, h') => f a h'
    | (.error e, h') => (.error e, h')).2.length ∧ ∀ a, (match m h with
    | (.ok a, h') => f a h'
    | (.error e, h') => (.error e, h')).1 = .ok a → R a
  rcases hr : m h with ⟨r, h'⟩
  rw [hr] at m1 m2 m3
  rcases r with e | a
  · exact ⟨m1, m2, by simp⟩
  · obtain ⟨f1, f2, f3⟩ := hf a (m3 a rfl) h' m2
    exact ⟨f1.trans m1, f2, f3⟩

theorem LeavesFirst.pure {α : Type} {n : ℕ} {a : α} {Q : α → Prop} (ha : Q a) : LeavesFirst n (Pure.pure a : HeapM K α) Q :=
  fun _ hn => ⟨rfl, hn, by rintro b ⟨⟩; exact ha⟩

theorem LeavesFirst.mono {α : Type} {n : ℕ} {m : HeapM K α} {Q R : α → Prop} (hm : LeavesFirst n m Q) (h : ∀ a, Q a → R a) :
    LeavesFirst n m R := fun H hn => ⟨(hm H hn).1, (hm H hn).2.1, fun a ha => h a ((hm H hn).2.2 a ha)⟩

theorem leaves_alloc (n : ℕ) (a : TArr K) : LeavesFirst n (alloc a) (n ≤ ·) := by
  intro h hn
  refine ⟨by simp [alloc, List.take_append_of_le_length hn], by simp [alloc]; omega, ?_⟩
  rintro b ⟨⟩
  exact hn

theorem leaves_load (n : ℕ) (r : Ref) : LeavesFirst n (load (K := K) r) fun _ => True := by
  intro h hn
  unfold load
  split <;> exact ⟨rfl, hn, fun _ _ => trivial⟩

theorem leaves_throw {α : Type} (n : ℕ) (e : PyErr) (Q : α → Prop) : LeavesFirst n (throwPy (K := K) e) Q :=
  fun h hn => ⟨rfl, hn, fun a ha => by simp [throwPy] at ha⟩

theorem leaves_store {n : ℕ} {r : Ref} (hr : n ≤ r) (a : TArr K) : LeavesFirst n (store r a) fun _ => True := by
  intro h hn
  refine ⟨?_, by simpa [store] using hn, fun _ _ => trivial⟩
  simp only [store]
  rw [List.take_set_of_le hr]

theorem leaves_mapM {α β : Type} {n : ℕ} {f : α → HeapM K β} (hf : ∀ a, LeavesFirst n (f a) fun _ => True) :
    ∀ l : List α, LeavesFirst n (l.mapM f) fun _ => True
  | [] => by rw [List.mapM_nil]; exact .pure trivial
  | a :: l => by
    rw [List.mapM_cons]
    exact (hf a).bind fun _ _ => (leaves_mapM hf l).bind fun _ _ => .pure trivial

theorem leaves_compute (n : ℕ) (rs : List Ref) (f : List (TArr K) → Except PyErr (TArr K)) :
    LeavesFirst n (compute rs f) (n ≤ ·) := by
  unfold compute
  refine (leaves_mapM (leaves_load n) rs).bind fun as _ => ?_
  split
  · exact leaves_alloc n _
  · exact leaves_throw n _ _

theorem leaves_zerosLike [Zero K] (n : ℕ) (x : Ref) : LeavesFirst n (zerosLike (K := K) x) (n ≤ ·) :=
  (leaves_load n x).bind fun _ _ => leaves_alloc n _

theorem leaves_iadd [Add K] {n : ℕ} (lib : Backend) {a : Ref} (ha : n ≤ a) (b : Ref) :
    LeavesFirst n (iadd (K := K) lib a b) (n ≤ ·) := by
  refine (leaves_load n a).bind fun u _ => (leaves_load n b).bind fun v _ => ?_
  split
  · exact leaves_throw n _ _
  · cases lib
    · dsimp only
      split_ifs
      · exact leaves_throw n _ _
      · exact leaves_throw n _ _
      · exact (leaves_store ha _).bind fun _ _ => .pure ha
    · exact leaves_alloc n _

theorem leaves_fillAt {n : ℕ} (lib : Backend) {a : Ref} (ha : n ≤ a) (sel : List ℕ → Bool) (v : List ℕ → K) :
    LeavesFirst n (fillAt lib a sel v) (n ≤ ·) := by
  refine (leaves_load n a).bind fun u _ => ?_
  cases lib
  · exact (leaves_store ha _).bind fun _ _ => .pure ha
  · exact leaves_alloc n _

theorem leaves_setItem {n : ℕ} (lib : Backend) {a : Ref} (ha : n ≤ a) (sel : List ℕ → Bool) (v : List ℕ → K) :
    LeavesFirst n (setItem lib a sel v) fun _ => True := by
  refine (leaves_load n a).bind fun u _ => ?_
  cases lib
  · exact leaves_store ha _
  · exact leaves_throw n _ _

theorem leaves_foldlM {α β : Type} {n : ℕ} {f : β → α → HeapM K β} {Q : β → Prop} :
    ∀ (l : List α), (∀ b, ∀ a ∈ l, Q b → LeavesFirst n (f b a) Q) → ∀ b, Q b → LeavesFirst n (l.foldlM f b) Q
  | [], _, b, hb => by rw [List.foldlM_nil]; exact .pure hb
  | a :: l, hf, b, hb => by
    rw [List.foldlM_cons]
    exact (hf b a List.mem_cons_self hb).bind fun c hc =>
      leaves_foldlM l (fun b a ha => hf b a (List.mem_cons_of_mem _ ha)) c hc

/-! ### No call writes to an array of the caller -/

/-- `LightStack.brightness`. -/
theorem C122_keeps_stack [Zero K] [Add K] (lib : Backend) (members : List (Ref → Ref → HeapM K Ref))
    (hm : ∀ m ∈ members, ∀ x y, Keeps (m x y)) (x y : Ref) : Keeps (stackBrightness lib members x y) ∧ NewArray (stackBrightness lib members x y) :=
  LeavesFirst.keeps_new fun n => (leaves_zerosLike n x).bind fun b hb =>
    leaves_foldlM members (fun _ m hmem hb => ((hm m hmem x y).leaves n).bind fun v _ => leaves_iadd lib hb v) b hb

/-- `Multiplane._raytrace_helper`, with every combination of the delays asked for. -/
theorem C122_keeps_multiplane [Zero K] [Add K] (lib : Backend) (shapiro geometric : Bool)
    (start finish : List (TArr K) → Except PyErr (TArr K)) (planes : List (HeapPlane K))
    (hd : ∀ P ∈ planes, ∀ x y, Keeps (P.deflection x y)) (hp : ∀ P ∈ planes, ∀ x y, Keeps (P.potential x y)) (x y : Ref) :
    Keeps (heapRaytrace lib shapiro geometric start finish planes x y) := by
  refine LeavesFirst.keeps (Q := fun _ _ => True) fun n => ?_
  have step : ∀ (s : HeapRay), ∀ P ∈ planes, (∀ r, s.TD = some r → n ≤ r) →
      LeavesFirst n (heapPlane lib shapiro geometric s P) fun s => ∀ r, s.TD = some r → n ≤ r := by
    intro s P hP hs
    refine (leaves_compute n _ _).bind fun u _ => (leaves_compute n _ _).bind fun v _ => ((hd P hP u v).leaves n).bind fun a _ => ?_
    obtain ⟨ax, ay⟩ := a
    refine (leaves_compute n _ _).bind fun tx _ => (leaves_compute n _ _).bind fun ty _ => ?_
    refine LeavesFirst.bind (Q := fun TD => ∀ r, TD = some r → n ≤ r) ?_ fun TD hTD => ?_
    · split
      · rename_i TD e
        refine (leaves_compute n _ _).bind fun u _ => (leaves_compute n _ _).bind fun v _ => ((hp P hP u v).leaves n).bind fun p _ =>
          (leaves_compute n _ _).bind fun t _ => (leaves_iadd lib (hs _ e) t).bind fun TD' h' => .pure ?_
        rintro r ⟨⟩
        exact h'
      · exact leaves_throw n _ _
      · exact .pure hs
    refine LeavesFirst.bind (Q := fun TD => ∀ r, TD = some r → n ≤ r) ?_ fun TD hTD => ?_
    · split
      · refine (leaves_compute n _ _).bind fun t _ => (leaves_iadd lib (hTD _ rfl) t).bind fun TD' h' => .pure ?_
        rintro r ⟨⟩
        exact h'
      · exact leaves_throw n _ _
      · exact .pure hTD
    exact (leaves_compute n _ _).bind fun X _ => (leaves_compute n _ _).bind fun Y _ => .pure hTD
  refine (leaves_compute n _ _).bind fun X _ => (leaves_compute n _ _).bind fun Y _ => ?_
  refine LeavesFirst.bind (Q := fun TD => ∀ r, TD = some r → n ≤ r) ?_ fun TD hTD => ?_
  · split_ifs
    · refine (leaves_zerosLike n x).bind fun t ht => .pure ?_
      rintro r ⟨⟩
      exact ht
    · exact .pure (by simp)
  refine (leaves_foldlM planes (fun s P hP hs => step s P hP hs) ⟨X, Y, x, y, TD⟩ hTD).bind fun s _ => ?_
  exact (leaves_compute n _ _).bind fun _ _ => (leaves_compute n _ _).bind fun _ _ => .pure trivial

/-- `pixel_to_plane`. -/
theorem C122_keeps_pixel_to_plane [Zero K] [Add K] (lib : Backend) (offset plane : List (TArr K) → Except PyErr (TArr K))
    (terms : List (List (TArr K) → Except PyErr (TArr K))) (i j : Ref) :
    Keeps (heapPixelToPlane lib offset plane terms i j) ∧ NewArray (heapPixelToPlane lib offset plane terms i j) :=
  LeavesFirst.keeps_new fun n => (leaves_compute n _ _).bind fun pixel _ => (leaves_zerosLike n pixel).bind fun d hd =>
    (leaves_foldlM terms (fun _ _ _ hd => (leaves_compute n _ _).bind fun v _ => leaves_iadd lib hd v) d hd).bind fun _ _ =>
      leaves_compute n _ _

/-- `plane_to_pixel`. -/
theorem C122_keeps_plane_to_pixel [Zero K] [Add K] (lib : Backend) (offset invert last : List (TArr K) → Except PyErr (TArr K))
    (terms : List (List (TArr K) → Except PyErr (TArr K))) (px py : Ref) :
    Keeps (heapPlaneToPixel lib offset invert last terms px py) ∧ NewArray (heapPlaneToPixel lib offset invert last terms px py) :=
  LeavesFirst.keeps_new fun n => (leaves_compute n _ _).bind fun plane _ => (leaves_compute n _ _).bind fun _ hpix =>
    (leaves_zerosLike n plane).bind fun d hd =>
    (leaves_foldlM terms (fun _ _ _ hd => (leaves_compute n _ _).bind fun v _ => leaves_iadd lib hd v) d hd).bind fun _ _ =>
      (leaves_compute n _ _).bind fun s _ => leaves_iadd lib hpix s

/-- `LensSource.__call__`, the part that adds the light of the lens to that of the source. -/
theorem C122_keeps_scene [Add K] (lib : Backend) (quad blank : List (TArr K) → Except PyErr (TArr K))
    (source lensLight : Option (Ref → HeapM K Ref)) (hs : ∀ s ∈ source, ∀ g, Keeps (s g)) (hl : ∀ l ∈ lensLight, ∀ g, Keeps (l g))
    (grid : Ref) :
    Keeps (heapScene lib quad blank source lensLight grid) ∧ NewArray (heapScene lib quad blank source lensLight grid) := by
  refine LeavesFirst.keeps_new fun n => ?_
  refine LeavesFirst.bind (Q := (n ≤ ·)) ?_ fun mu hmu => ?_
  · split
    · exact ((hs _ rfl grid).leaves n).bind fun f _ => leaves_compute n _ _
    · exact leaves_compute n _ _
  · split
    · exact ((hl _ rfl grid).leaves n).bind fun f _ => (leaves_compute n _ _).bind fun g _ => leaves_iadd lib hmu g
    · exact .pure hmu

/-- `bicubic_kernels`. -/
theorem C122_keeps_kernels [Zero K] (lib : Backend) (regions : List (List ((List ℕ → Bool) × (TArr K → List ℕ → K)))) (Z : Ref) :
    Keeps (heapKernels lib regions Z) :=
  LeavesFirst.keeps (Q := fun _ _ => True) fun n => leaves_mapM (fun rs => (leaves_zerosLike n Z).bind fun d hd =>
    (leaves_foldlM rs (fun _ _ _ hd => (leaves_load n Z).bind fun _ _ => leaves_fillAt lib hd _ _) d hd).mono fun _ _ => trivial) regions

/-- The finite-difference Jacobian. -/
theorem C122_keeps_jacobian [Zero K] (lib : Backend) (deflection : Ref → Ref → HeapM K (Ref × Ref))
    (hd : ∀ x y, Keeps (deflection x y)) (grads : List ((List ℕ → Bool) × (TArr K → TArr K → List ℕ → K))) (x y : Ref) :
    Keeps (heapJacobian lib deflection grads x y) ∧ NewArray (heapJacobian lib deflection grads x y) :=
  LeavesFirst.keeps_new fun n => ((hd x y).leaves n).bind fun a _ => (leaves_compute n _ _).bind fun J hJ =>
    leaves_foldlM grads (fun _ _ _ hJ => (leaves_load n a.1).bind fun _ _ => (leaves_load n a.2).bind fun _ _ =>
      leaves_fillAt lib hJ _ _) J hJ

/-- `interp1d`. -/
theorem C122_keeps_interp1d (lib : Backend) (extend : String) (values : List (TArr K) → Except PyErr (TArr K))
    (beyond : TArr K → List ℕ → Bool) (const linear : TArr K → TArr K → TArr K → List ℕ → K) (x y xs : Ref) :
    Keeps (heapInterp1d lib extend values beyond const linear x y xs) ∧
      NewArray (heapInterp1d lib extend values beyond const linear x y xs) := by
  refine LeavesFirst.keeps_new fun n => ?_
  refine (leaves_compute n _ _).bind fun ret hret => (leaves_load n _).bind fun a _ => (leaves_load n _).bind fun b _ =>
    (leaves_load n _).bind fun c _ => ?_
  split_ifs
  · exact (leaves_setItem lib hret _ _).bind fun _ _ => .pure hret
  · exact (leaves_setItem lib hret _ _).bind fun _ _ => .pure hret
  · exact (LeavesFirst.pure (a := ()) (Q := fun _ => True) trivial).bind fun _ _ => .pure hret

theorem bind_ok {α β : Type} {m : HeapM K α} {f : α → HeapM K β} {h h' : Heap K} {a : α} (e : m h = (.ok a, h')) :
    (m >>= f) h = f a h' := by
  show (match m h with
    | (.ok a, h') => f a h'
    | (.error e, h') => (.error e, h')) = _
  rw [e]

theorem bind_error {α β : Type} {m : HeapM K α} {f : α → HeapM K β} {h h' : Heap K} {e : PyErr} (he : m h = (.error e, h')) :
    (m >>= f) h = (.error e, h') := by
  show (match m h with
    | (.ok a, h') => f a h'
    | (.error e, h') => (.error e, h')) = _
  rw [he]

theorem load_ok {h : Heap K} {r : ℕ} {a : TArr K} (e : h[r]? = some a) : load r h = (.ok a, h) := by
  unfold load; rw [e]

theorem get_prefix {h h' : Heap K} (hp : h <+: h') {r : ℕ} {a : TArr K} (e : h[r]? = some a) : h'[r]? = some a := by
  obtain ⟨t, rfl⟩ := hp
  have : r < h.length := by
    by_contra hc
    rw [List.getElem?_eq_none (by omega)] at e
    simp at e
  rw [List.getElem?_append_left this, e]

theorem lt_of_get {h : Heap K} {r : ℕ} {a : TArr K} (e : h[r]? = some a) : r < h.length := by
  by_contra hc
  rw [List.getElem?_eq_none (by omega)] at e
  simp at e

/-- The helper itself is not like that: on torch `fill_at_indices` changes the array it is given, on jax it leaves it alone. -/
theorem C122_fails_helper (h : Heap K) (a : ℕ) (u : TArr K) (ha : h[a]? = some u) (sel : List ℕ → Bool) (v : List ℕ → K) :
    (fillAt .torch a sel v h).2[a]? = some ⟨u.shape, u.float, fun idx => if sel idx then v idx else u.get idx⟩ ∧
      (fillAt .jax a sel v h).2[a]? = some u := by
  have hl : a < h.length := by
    by_contra hc
    rw [List.getElem?_eq_none (by omega)] at ha
    simp at ha
  have e : ∀ lib, fillAt lib a sel v h = (match lib with
    | .jax => alloc ⟨u.shape, u.float, fun idx => if sel idx then v idx else u.get idx⟩
    | .torch => (do
      store a ⟨u.shape, u.float, fun idx => if sel idx then v idx else u.get idx⟩
      pure a : HeapM K Ref)) h := by
    intro lib
    unfold fillAt
    rw [bind_ok (load_ok ha)]
    cases lib <;> rfl
  constructor
  · rw [e]
    show (h.set a _)[a]? = _
    rw [List.getElem?_set_self hl]
  · rw [e]
    show (h ++ [_])[a]? = _
    rw [List.getElem?_append_left hl, ha]

/-! ### What the two libraries compute -/

theorem bcastRev_self : ∀ s : List ℕ, bcastRev s s = some s
  | [] => rfl
  | a :: s => by simp [bcastRev, bcastRev_self s]

theorem bcast_self (s : List ℕ) : bcast s s = some s := by simp [bcast, bcastRev_self]

theorem bcastRev_comm : ∀ s t : List ℕ, bcastRev s t = bcastRev t s
  | [], [] => rfl
  | [], _ :: _ => rfl
  | _ :: _, [] => rfl
  | a :: s, b :: t => by
    simp only [bcastRev, bcastRev_comm s t]
    by_cases h : a = b
    · subst h; simp
    · have h' : ¬b = a := fun e => h e.symm
      by_cases h1 : a = 1
      · subst h1; simp [h, h']
      · by_cases h2 : b = 1
        · subst h2; simp [h, h']
        · simp [h, h', h1, h2]

theorem bcastRev_dims : ∀ {s t r : List ℕ}, bcastRev s t = some r →
    r.length = max s.length t.length ∧
    ∀ i, (s.getD i 1 = r.getD i 1 ∨ s.getD i 1 = 1) ∧ (t.getD i 1 = r.getD i 1 ∨ t.getD i 1 = 1) ∧
      (r.getD i 1 = s.getD i 1 ∨ r.getD i 1 = t.getD i 1)
  | [], t, r, h => by
    simp only [bcastRev, Option.some.injEq] at h
    subst h
    simp
  | a :: s, [], r, h => by
    simp only [bcastRev, Option.some.injEq] at h
    subst h
    simp
  | a :: s, b :: t, r, h => by
    simp only [bcastRev] at h
    split_ifs at h with h1 h2
    · obtain ⟨q, hq, rfl⟩ := Option.map_eq_some_iff.1 h
      obtain ⟨hl, hi⟩ := bcastRev_dims hq
      refine ⟨by simp [hl], fun i => ?_⟩
      cases i with
      | zero => rcases h1 with h1 | h1 <;> simp [h1]
      | succ i => simpa using hi i
    · obtain ⟨q, hq, rfl⟩ := Option.map_eq_some_iff.1 h
      obtain ⟨hl, hi⟩ := bcastRev_dims hq
      refine ⟨by simp [hl], fun i => ?_⟩
      cases i with
      | zero => simp [h2]
      | succ i => simpa using hi i

/-- The sum of two arrays does not depend on which comes first: the same shape, the same elements, or an error both times;
its shape has as many dimensions as the longer of the two, and counted from the last dimension each array has either the
length of the sum or length 1 there. -/
theorem C122_sum [AddCommMagma K] (a b : TArr K) :
    a.add b = b.add a ∧ ∀ c, a.add b = .ok c → c.shape.length = max a.shape.length b.shape.length ∧
      ∀ i, (a.shape.reverse.getD i 1 = c.shape.reverse.getD i 1 ∨ a.shape.reverse.getD i 1 = 1) ∧
        (b.shape.reverse.getD i 1 = c.shape.reverse.getD i 1 ∨ b.shape.reverse.getD i 1 = 1) ∧
        (c.shape.reverse.getD i 1 = a.shape.reverse.getD i 1 ∨ c.shape.reverse.getD i 1 = b.shape.reverse.getD i 1) := by
  have hc : bcast a.shape b.shape = bcast b.shape a.shape := by simp only [bcast, bcastRev_comm a.shape.reverse]
  constructor
  · simp only [TArr.add, ← hc]
    cases bcast a.shape b.shape with
    | none => rfl
    | some r => simp only [Bool.or_comm, add_comm]
  · intro c h
    simp only [TArr.add] at h
    cases hb : bcast a.shape b.shape with
    | none => simp [hb] at h
    | some r =>
      rw [hb] at h
      injection h with h
      subst h
      simp only [bcast, Option.map_eq_some_iff] at hb
      obtain ⟨q, hq, rfl⟩ := hb
      have := bcastRev_dims hq
      simpa using this

/-- `(3, 1) + (4,)` has the shape `(3, 4)`, in either order. -/
example : bcast [3, 1] [4] = some [3, 4] ∧ bcast [4] [3, 1] = some [3, 4] ∧ bcast [3, 2] [4] = none := by decide

theorem bget_self (a : TArr K) {idx : List ℕ} (h : List.Forall₂ (· < ·) idx a.shape) : a.bget idx = a.get idx := by
  unfold TArr.bget
  rw [h.length_eq, Nat.sub_self, List.drop_zero]
  congr 1
  generalize a.shape = s at h
  induction h with
  | nil => rfl
  | @cons i n is ns h _ ih =>
    rw [List.zipWith_cons_cons, ih]
    split_ifs with h1
    · rw [show i = 0 by omega]
    · rfl

/-- The call `m` computes the array `f X Y` from the arrays `X`, `Y` it is given, and leaves storage alone. -/
def CallsOn (m : Ref → Ref → HeapM K Ref) (f : TArr K → TArr K → TArr K) : Prop :=
  ∀ h x y X Y, h[x]? = some X → h[y]? = some Y →
    ∃ r h', m x y h = (.ok r, h') ∧ h <+: h' ∧ h'[r]? = some (f X Y)

/-- What `+=` does to the stored arrays when the sum fits. -/
theorem iadd_ok [Add K] (lib : Backend) {h : Heap K} {a b : ℕ} {u v s : TArr K} (ha : h[a]? = some u) (hb : h[b]? = some v)
    (hs : u.add v = .ok s) (h1 : lib = .torch → s.shape = u.shape) (h2 : lib = .torch → s.float = true → u.float = true) :
    ∃ r h', iadd lib a b h = (.ok r, h') ∧ h'[r]? = some s ∧ a ≤ r ∧ ∀ k < a, h'[k]? = h[k]? := by
  have la := lt_of_get ha
  unfold iadd
  rw [bind_ok (load_ok ha), bind_ok (load_ok hb), hs]
  cases lib
  · have c1 : ¬ s.shape ≠ u.shape := by simp [h1 rfl]
    have c2 : ¬ (s.float && !u.float) = true := by
      have := h2 rfl
      cases hf : s.float <;> cases hu : u.float <;> simp_all
    simp only [c1, c2, if_false]
    refine ⟨a, h.set a s, rfl, List.getElem?_set_self la, le_rfl, fun k hk => ?_⟩
    rw [List.getElem?_set_ne (by omega)]
  · refine ⟨h.length, h ++ [s], rfl, by simp, la.le, fun k hk => ?_⟩
    rw [List.getElem?_append_left (by omega)]

/-- On torch, `+=` raises when the sum does not fit. -/
theorem iadd_raises [Add K] {h : Heap K} {a b : ℕ} {u v : TArr K} (ha : h[a]? = some u) (hb : h[b]? = some v)
    (hs : bcast u.shape v.shape ≠ some u.shape ∨ (u.float = false ∧ v.float = true)) :
    (iadd .torch a b h) = (.error .valueError, h) := by
  unfold iadd
  rw [bind_ok (load_ok ha), bind_ok (load_ok hb)]
  unfold TArr.add
  rcases e : bcast u.shape v.shape with _ | s
  · rfl
  · dsimp only
    rcases hs with hs | ⟨h1, h2⟩
    · have : s ≠ u.shape := by rintro rfl; exact hs e
      rw [if_pos this]
      rfl
    · split_ifs with h3
      · rfl
      · rfl
      · simp [h1, h2] at *

/-- `LightStack.brightness` when the members return arrays of the shape of `x`, and floating numbers only if `x` holds
floating numbers: both libraries return the sum over the members, element by element. -/
theorem C122_stack_partial [Ring K] (lib : Backend) {members : List (Ref → Ref → HeapM K Ref)}
    {fs : List (TArr K → TArr K → TArr K)} (hm : List.Forall₂ CallsOn members fs) {h : Heap K} {x y : ℕ} {X Y : TArr K}
    (hx : h[x]? = some X) (hy : h[y]? = some Y) (hshape : ∀ f ∈ fs, (f X Y).shape = X.shape)
    (hfloat : ∀ f ∈ fs, (f X Y).float = true → X.float = true) :
    ∃ r h' S, stackBrightness lib members x y h = (.ok r, h') ∧ h'[r]? = some S ∧ S.shape = X.shape ∧ S.float = X.float ∧
      ∀ idx, List.Forall₂ (· < ·) idx X.shape → S.get idx = (fs.map fun f => (f X Y).get idx).sum := by
  have loop : ∀ (members : List (Ref → Ref → HeapM K Ref)) (fs : List (TArr K → TArr K → TArr K)),
      List.Forall₂ CallsOn members fs → (∀ f ∈ fs, (f X Y).shape = X.shape) → (∀ f ∈ fs, (f X Y).float = true → X.float = true) →
      ∀ (b : ℕ) (h : Heap K) (B : TArr K), h[x]? = some X → h[y]? = some Y → x < b → y < b → h[b]? = some B →
        B.shape = X.shape → B.float = X.float →
        ∃ r h' S, (members.foldlM (fun b m => do
          let v ← m x y
          iadd lib b v) b : HeapM K Ref) h = (.ok r, h') ∧ h'[r]? = some S ∧ S.shape = X.shape ∧ S.float = X.float ∧
          ∀ idx, List.Forall₂ (· < ·) idx X.shape → S.get idx = B.get idx + (fs.map fun f => (f X Y).get idx).sum := by
    intro members fs hm
    induction hm with
    | nil =>
      intro _ _ b h B _ _ _ _ hb hB hF
      exact ⟨b, h, B, rfl, hb, hB, hF, by simp⟩
    | @cons m f members fs hmf _ ih =>
      intro hs hf b h B hx hy xb yb hb hB hF
      obtain ⟨v, h1, e1, p1, g1⟩ := hmf h x y X Y hx hy
      have hsum : B.add (f X Y) = .ok ⟨X.shape, B.float || (f X Y).float, fun idx => B.bget idx + (f X Y).bget idx⟩ := by
        unfold TArr.add
        rw [hB, hs f List.mem_cons_self, bcast_self]
      have hfl : (B.float || (f X Y).float) = X.float := by
        have := hf f List.mem_cons_self
        rw [hF]
        cases hX : X.float <;> simp_all
      obtain ⟨r, h2, e2, g2, ar, keep⟩ := iadd_ok lib (get_prefix p1 hb) g1 hsum (fun _ => hB.symm) (fun _ hs => by
        rw [hF, ← hfl]; exact hs)
      obtain ⟨r', h', S, e3, g3, s3, f3, v3⟩ := ih (fun f hf => hs f (List.mem_cons_of_mem _ hf))
        (fun g hg => hf g (List.mem_cons_of_mem _ hg)) r h2 _ ((keep x xb).trans (get_prefix p1 hx))
        ((keep y yb).trans (get_prefix p1 hy)) (by omega) (by omega) g2 rfl hfl
      refine ⟨r', h', S, ?_, g3, s3, f3, fun idx hidx => ?_⟩
      · rw [List.foldlM_cons, bind_ok (a := r) (h' := h2) (by rw [bind_ok e1, e2]), e3]
      · rw [v3 idx hidx]
        simp only [List.map_cons, List.sum_cons]
        rw [bget_self B (by rw [hB]; exact hidx), bget_self _ (by rw [hs f List.mem_cons_self]; exact hidx), add_assoc]
  have lx := lt_of_get hx
  have ly := lt_of_get hy
  have hz : zerosLike x h = (.ok h.length, h ++ [⟨X.shape, X.float, fun _ => 0⟩]) := by
    unfold zerosLike
    rw [bind_ok (load_ok hx)]
    rfl
  obtain ⟨r, h', S, e, g, s, f, v⟩ := loop members fs hm hshape hfloat h.length (h ++ [⟨X.shape, X.float, fun _ => 0⟩]) ⟨X.shape, X.float, fun _ => 0⟩
    (get_prefix ⟨_, rfl⟩ hx) (get_prefix ⟨_, rfl⟩ hy) lx ly (by simp) rfl rfl
  refine ⟨r, h', S, ?_, g, s, f, fun idx hidx => by rw [v idx hidx, zero_add]⟩
  unfold stackBrightness
  rw [bind_ok hz, e]

/-- On torch a `LightStack` raises as soon as one member returns an array that does not fit into the shape of `x`, or
floating numbers at positions given as integers - although each member can be evaluated there. -/
theorem C122_fails_stack [Ring K] {members : List (Ref → Ref → HeapM K Ref)}
    {fs : List (TArr K → TArr K → TArr K)} (hm : List.Forall₂ CallsOn members fs) {h : Heap K} {x y : ℕ} {X Y : TArr K}
    (hx : h[x]? = some X) (hy : h[y]? = some Y)
    (hbad : ∃ f ∈ fs, bcast X.shape (f X Y).shape ≠ some X.shape ∨ (X.float = false ∧ (f X Y).float = true)) :
    (stackBrightness .torch members x y h).1 = .error .valueError := by
  have loop : ∀ (members : List (Ref → Ref → HeapM K Ref)) (fs : List (TArr K → TArr K → TArr K)),
      List.Forall₂ CallsOn members fs →
      (∃ f ∈ fs, bcast X.shape (f X Y).shape ≠ some X.shape ∨ (X.float = false ∧ (f X Y).float = true)) →
      ∀ (b : ℕ) (h : Heap K) (B : TArr K), h[x]? = some X → h[y]? = some Y → x < b → y < b → h[b]? = some B →
        B.shape = X.shape → B.float = X.float →
        ((members.foldlM (fun b m => do
          let v ← m x y
          iadd .torch b v) b : HeapM K Ref) h).1 = .error .valueError := by
    intro members fs hm
    induction hm with
    | nil => simp
    | @cons m f members fs hmf _ ih =>
      intro hbad b h B hx hy xb yb hb hB hF
      obtain ⟨v, h1, e1, p1, g1⟩ := hmf h x y X Y hx hy
      rw [List.foldlM_cons]
      by_cases hf : bcast X.shape (f X Y).shape ≠ some X.shape ∨ (X.float = false ∧ (f X Y).float = true)
      · have := iadd_raises (get_prefix p1 hb) g1 (by rw [hB, hF]; exact hf)
        rw [bind_error (e := .valueError) (h' := h1) (by rw [bind_ok e1, this])]
      · have hf' := hf
        push Not at hf
        have hsum : B.add (f X Y) = .ok ⟨X.shape, B.float || (f X Y).float, fun idx => B.bget idx + (f X Y).bget idx⟩ := by
          unfold TArr.add
          rw [hB, hf.1]
        have hfl : (B.float || (f X Y).float) = X.float := by
          have := hf.2
          rw [hF]
          cases hX : X.float <;> simp_all
        obtain ⟨r, h2, e2, g2, ar, keep⟩ := iadd_ok .torch (get_prefix p1 hb) g1 hsum (fun _ => hB.symm) (fun _ hs => by
          rw [hF, ← hfl]; exact hs)
        rw [bind_ok (a := r) (h' := h2) (by rw [bind_ok e1, e2])]
        obtain ⟨g, hg, hgb⟩ := hbad
        rcases List.mem_cons.1 hg with rfl | hg
        · exact absurd hgb hf'
        · exact ih ⟨g, hg, hgb⟩ r h2 _ ((keep x xb).trans (get_prefix p1 hx))
            ((keep y yb).trans (get_prefix p1 hy)) (by omega) (by omega) g2 rfl hfl
  have lx := lt_of_get hx
  have ly := lt_of_get hy
  have hz : zerosLike x h = (.ok h.length, h ++ [⟨X.shape, X.float, fun _ => 0⟩]) := by
    unfold zerosLike
    rw [bind_ok (load_ok hx)]
    rfl
  unfold stackBrightness
  rw [bind_ok hz]
  exact loop members fs hm hbad h.length _ ⟨X.shape, X.float, fun _ => 0⟩ (get_prefix ⟨_, rfl⟩ hx) (get_prefix ⟨_, rfl⟩ hy) lx ly (by simp) rfl rfl

/-- The same stack on jax: members of the shape of `x` give their sum, at integer positions too. -/
theorem C122_stack_jax [Ring K] {members : List (Ref → Ref → HeapM K Ref)}
    {fs : List (TArr K → TArr K → TArr K)} (hm : List.Forall₂ CallsOn members fs) {h : Heap K} {x y : ℕ} {X Y : TArr K}
    (hx : h[x]? = some X) (hy : h[y]? = some Y) (hshape : ∀ f ∈ fs, (f X Y).shape = X.shape) :
    ∃ r h' S, stackBrightness .jax members x y h = (.ok r, h') ∧ h'[r]? = some S ∧ S.shape = X.shape ∧
      ∀ idx, List.Forall₂ (· < ·) idx X.shape → S.get idx = (fs.map fun f => (f X Y).get idx).sum := by
  have loop : ∀ (members : List (Ref → Ref → HeapM K Ref)) (fs : List (TArr K → TArr K → TArr K)),
      List.Forall₂ CallsOn members fs → (∀ f ∈ fs, (f X Y).shape = X.shape) →
      ∀ (b : ℕ) (h : Heap K) (B : TArr K), h[x]? = some X → h[y]? = some Y → x < b → y < b → h[b]? = some B →
        B.shape = X.shape →
        ∃ r h' S, (members.foldlM (fun b m => do
          let v ← m x y
          iadd .jax b v) b : HeapM K Ref) h = (.ok r, h') ∧ h'[r]? = some S ∧ S.shape = X.shape ∧
          ∀ idx, List.Forall₂ (· < ·) idx X.shape → S.get idx = B.get idx + (fs.map fun f => (f X Y).get idx).sum := by
    intro members fs hm
    induction hm with
    | nil =>
      intro _ b h B _ _ _ _ hb hB
      exact ⟨b, h, B, rfl, hb, hB, by simp⟩
    | @cons m f members fs hmf _ ih =>
      intro hs b h B hx hy xb yb hb hB
      obtain ⟨v, h1, e1, p1, g1⟩ := hmf h x y X Y hx hy
      have hsum : B.add (f X Y) = .ok ⟨X.shape, B.float || (f X Y).float, fun idx => B.bget idx + (f X Y).bget idx⟩ := by
        unfold TArr.add
        rw [hB, hs f List.mem_cons_self, bcast_self]
      obtain ⟨r, h2, e2, g2, ar, keep⟩ := iadd_ok .jax (get_prefix p1 hb) g1 hsum (by simp) (by simp)
      obtain ⟨r', h', S, e3, g3, s3, v3⟩ := ih (fun f hf => hs f (List.mem_cons_of_mem _ hf)) r h2 _
        ((keep x xb).trans (get_prefix p1 hx)) ((keep y yb).trans (get_prefix p1 hy)) (by omega) (by omega) g2 rfl
      refine ⟨r', h', S, ?_, g3, s3, fun idx hidx => ?_⟩
      · rw [List.foldlM_cons, bind_ok (a := r) (h' := h2) (by rw [bind_ok e1, e2]), e3]
      · rw [v3 idx hidx]
        simp only [List.map_cons, List.sum_cons]
        rw [bget_self B (by rw [hB]; exact hidx), bget_self _ (by rw [hs f List.mem_cons_self]; exact hidx), add_assoc]
  have lx := lt_of_get hx
  have ly := lt_of_get hy
  have hz : zerosLike x h = (.ok h.length, h ++ [⟨X.shape, X.float, fun _ => 0⟩]) := by
    unfold zerosLike
    rw [bind_ok (load_ok hx)]
    rfl
  obtain ⟨r, h', S, e, g, s, v⟩ := loop members fs hm hshape h.length (h ++ [⟨X.shape, X.float, fun _ => 0⟩]) ⟨X.shape, X.float, fun _ => 0⟩
    (get_prefix ⟨_, rfl⟩ hx) (get_prefix ⟨_, rfl⟩ hy) lx ly (by simp) rfl
  refine ⟨r, h', S, ?_, g, s, fun idx hidx => by rw [v idx hidx, zero_add]⟩
  unfold stackBrightness
  rw [bind_ok hz, e]

/-- `interp1d` with `extend="const"` or `"linear"` raises on jax, whatever the positions. -/
theorem C122_fails_interp1d {h : Heap K} {x y xs : ℕ} {X Y XS V : TArr K} (hx : h[x]? = some X) (hy : h[y]? = some Y)
    (hs : h[xs]? = some XS) (values : List (TArr K) → Except PyErr (TArr K)) (hv : values [X, Y, XS] = .ok V)
    (beyond : TArr K → List ℕ → Bool) (const linear : TArr K → TArr K → TArr K → List ℕ → K) {extend : String}
    (he : extend = "const" ∨ extend = "linear") :
    (heapInterp1d .jax extend values beyond const linear x y xs h).1 = .error .typeError := by
  have hc : compute [x, y, xs] values h = (.ok h.length, h ++ [V]) := by
    unfold compute
    have : [x, y, xs].mapM (load (K := K)) h = (.ok [X, Y, XS], h) := by
      simp only [List.mapM_cons, List.mapM_nil]
      rw [bind_ok (load_ok hx), bind_ok (a := [Y, XS]) (h' := h)]
      · rfl
      · rw [bind_ok (load_ok hy), bind_ok (a := [XS]) (h' := h)]
        · rfl
        · rw [bind_ok (load_ok hs)]
          rfl
    rw [bind_ok this, hv]
    rfl
  have hp : h <+: h ++ [V] := ⟨_, rfl⟩
  have hset : ∀ sel v, setItem .jax h.length sel v (h ++ [V]) = (.error .typeError, h ++ [V]) := by
    intro sel v
    unfold setItem
    rw [bind_ok (load_ok (a := V) (by simp))]
    rfl
  unfold heapInterp1d
  rw [bind_ok hc, bind_ok (load_ok (get_prefix hp hx)), bind_ok (load_ok (get_prefix hp hy)),
    bind_ok (load_ok (get_prefix hp hs))]
  rcases he with rfl | rfl
  · rw [if_pos (by rfl), bind_error (hset _ _)]
  · rw [if_neg (by decide), if_pos (by rfl), bind_error (hset _ _)]

/-! ### `add_at_indices` -/

theorem foldl_update_of_notMem {V : Type} (g : ℕ × V → (ℕ → V) → V) : ∀ (l : List (ℕ × V)) (a : ℕ → V) (k : ℕ), k ∉ l.map Prod.fst →
    (l.foldl (fun b p => Function.update b p.1 (g p b)) a) k = a k
  | [], _, _, _ => rfl
  | p :: l, a, k, h => by
    rw [List.foldl_cons, foldl_update_of_notMem g l _ k fun hk => h (List.mem_cons_of_mem _ hk)]
    rw [Function.update_of_ne]
    rintro rfl
    exact h List.mem_cons_self

/-- With distinct positions the two libraries agree. -/
theorem C122_add_partial [Add K] (a : ℕ → K) (idx : List (ℕ × K)) (hd : (idx.map Prod.fst).Nodup) : addAtTorch a idx = addAtJax a idx := by
  have gen : ∀ (idx : List (ℕ × K)) (b : ℕ → K), (idx.map Prod.fst).Nodup → (∀ p ∈ idx, b p.1 = a p.1) →
      (idx.map fun p => (p.1, a p.1 + p.2)).foldl (fun b p => Function.update b p.1 p.2) b
        = idx.foldl (fun b p => Function.update b p.1 (b p.1 + p.2)) b := by
    intro idx
    induction idx with
    | nil => intros; rfl
    | cons p idx ih =>
      intro b hd hb
      rw [List.map_cons, List.nodup_cons] at hd
      simp only [List.map_cons, List.foldl_cons]
      rw [hb p List.mem_cons_self]
      refine ih _ hd.2 fun q hq => ?_
      rw [Function.update_of_ne, hb q (List.mem_cons_of_mem _ hq)]
      intro e
      exact hd.1 (e ▸ List.mem_map_of_mem hq)
  exact gen idx a hd fun _ _ => rfl

/-- A repeated position: jax adds both values, torch keeps one of them. -/
theorem C122_fails_add [Ring K] (a : ℕ → K) (k : ℕ) {u : K} (hu : u ≠ 0) (v : K) :
    addAtTorch a [(k, u), (k, v)] k = a k + v ∧ addAtJax a [(k, u), (k, v)] k = a k + u + v ∧
      addAtTorch a [(k, u), (k, v)] ≠ addAtJax a [(k, u), (k, v)] := by
  have h1 : addAtTorch a [(k, u), (k, v)] k = a k + v := by simp [addAtTorch]
  have h2 : addAtJax a [(k, u), (k, v)] k = a k + u + v := by simp [addAtJax]
  refine ⟨h1, h2, fun e => hu ?_⟩
  have := congrFun e k
  rw [h1, h2] at this
  have h3 : a k + v = a k + v + u := this.trans (by abel)
  simpa using h3

/-- The full claim: a stack returns the same numbers, or raises the same exception, whichever library is active. -/
def C122_statement : Prop :=
  ∀ (members : List (Ref → Ref → HeapM ℚ Ref)) (fs : List (TArr ℚ → TArr ℚ → TArr ℚ)), List.Forall₂ CallsOn members fs →
    ∀ (h : Heap ℚ) (x y : Ref) (X Y : TArr ℚ), h[x]? = some X → h[y]? = some Y →
      ((stackBrightness .torch members x y h).1.toOption.isSome ↔ (stackBrightness .jax members x y h).1.toOption.isSome)

/-- A light source of brightness 1/2 everywhere. -/
def halfLight (x _y : Ref) : HeapM ℚ Ref := do
  let a ← load x
  alloc ⟨a.shape, true, fun _ => 1 / 2⟩

theorem halfLight_calls : CallsOn halfLight fun X _ => ⟨X.shape, true, fun _ => 1 / 2⟩ := by
  intro h x y X Y hx _
  refine ⟨h.length, h ++ [⟨X.shape, true, fun _ => 1 / 2⟩], ?_, ⟨_, rfl⟩, by simp⟩
  unfold halfLight
  rw [bind_ok (load_ok hx)]
  rfl

/-- One source, two positions given as integers. -/
theorem C122_fails : ¬ C122_statement := by
  intro H
  have hm : List.Forall₂ CallsOn [halfLight] [fun X _ => ⟨X.shape, true, fun _ => 1 / 2⟩] := .cons halfLight_calls .nil
  have h := H _ _ hm [⟨[2], false, fun _ => 3⟩] 0 0 _ _ rfl rfl
  have e1 := C122_fails_stack hm (h := [⟨[2], false, fun _ => 3⟩]) (x := 0) (y := 0) rfl rfl
    ⟨_, List.mem_cons_self, Or.inr ⟨rfl, rfl⟩⟩
  obtain ⟨r, h', S, e2, -⟩ := C122_stack_jax hm (h := [⟨[2], false, fun _ => 3⟩]) (x := 0) (y := 0) rfl rfl (by simp)
  rw [e1, e2] at h
  simp [Except.toOption] at h

/-- The theorems apply: two sources at two positions. -/
example (lib : Backend) : ∃ r h' S, stackBrightness lib [halfLight, halfLight] 0 0 [⟨[2], true, fun _ => 3⟩] = (.ok r, h') ∧
    h'[r]? = some S ∧ S.get [1] = 1 := by
  obtain ⟨r, h', S, h1, h2, -, -, h3⟩ := C122_stack_partial lib (.cons halfLight_calls (.cons halfLight_calls .nil))
    (h := [⟨[2], true, fun _ => 3⟩]) (x := 0) (y := 0) rfl rfl (by simp) (by simp)
  refine ⟨r, h', S, h1, h2, ?_⟩
  rw [h3 [1] (.cons (by decide) .nil)]
  norm_num

example (h : Heap ℚ) : h <+: (stackBrightness .torch [halfLight] 0 0 h).2 :=
  (C122_keeps_stack .torch [halfLight] (by
    intro m hm x y
    rw [List.mem_singleton.1 hm]
    exact LeavesFirst.keeps (Q := fun n r => n ≤ r) fun n => (leaves_load n x).bind fun _ _ => leaves_alloc n _) 0 0).1 h

end Caustics

import Verif.Lemmas.NDArray
import Mathlib.Tactic.NormNum
import Mathlib.Tactic.IntervalCases

/-! C73: array-shaped evaluation of the automatic-differentiation defaults; C74: `vmap_n`. -/

namespace Caustics

/-- The full property: on either array library, for arguments of every shape and every chunk size,
the result has the shape of the arguments and holds at each index the function of the arguments
there. -/
def C73_statement (b : Backend) : Prop :=
  ∀ (f : ℚ → ℚ → ℚ) (chunk : Option ℕ), chunk ≠ some 0 → ∀ x y : NArr ℚ, x.shape = y.shape →
    ∃ r, evalFlat b chunk f x y = .ok r ∧ r.shape = x.shape ∧
      ∀ idx, InRange x.shape idx → r.get idx = f (x.get idx) (y.get idx)

/-- On jax a scalar position raises ZeroDivisionError, for every function and chunk size. -/
theorem C73_scalar {α β : Type} [Inhabited β] (chunk : Option ℕ) (f : α → α → β) (x y : NArr α)
    (hx : x.shape = []) : evalFlat .jax chunk f x y = .error .zeroDivision := by
  simp [evalFlat, NArr.flatten, NArr.flattenDims, flattenShapeJax, hx, bind, Except.bind]

theorem C73_fails : ¬ C73_statement .jax := by
  intro h
  obtain ⟨r, hr, _⟩ := h (fun _ _ => 0) none (by simp) ⟨[], fun _ => 0⟩ ⟨[], fun _ => 0⟩ rfl
  rw [C73_scalar _ _ _ _ rfl] at hr
  cases hr

/-- Everything else: torch for every shape, jax for every shape but scalars. -/
theorem C73_pointwise_partial {α β : Type} [Inhabited β] (b : Backend) (chunk : Option ℕ)
    (hc : chunk ≠ some 0) (f : α → α → β) (x y : NArr α) (hs : x.shape = y.shape)
    (hb : b = .torch ∨ x.shape ≠ []) :
    ∃ r, evalFlat b chunk f x y = .ok r ∧ r.shape = x.shape ∧
      ∀ idx, InRange x.shape idx → r.get idx = f (x.get idx) (y.get idx) := by
  obtain ⟨fx, e1, h1, l1⟩ := flatten_ok b x hb
  obtain ⟨fy, e2, h2, l2⟩ := flatten_ok b y (hs ▸ hb)
  have hv := vmapPair_flatten b chunk hc f x y fx fy (by rw [hs]) h1 h2 l1 l2
  simp only [evalFlat, e1, e2, hv, bind, Except.bind, NArr.reshape, List.length_map,
    List.length_range, List.prod_singleton, if_true]
  refine ⟨_, rfl, rfl, fun idx hi => ?_⟩
  have hlt := ravel_lt hi
  simp only [unravel, ravel, List.prod_nil, Nat.div_one, Nat.mul_one, Nat.add_zero]
  rw [List.getElem?_map, List.getElem?_range hlt]
  simp [← hs, unravel_ravel hi]

/-- So it holds for torch. -/
theorem C73_torch : C73_statement .torch := fun f chunk hc x y hs =>
  C73_pointwise_partial .torch chunk hc f x y hs (Or.inl rfl)

/-- Two arrays of different numbers of elements are refused: there is no broadcasting. -/
theorem C73_no_broadcast {α β : Type} [Inhabited β] (b : Backend) (chunk : Option ℕ)
    (f : α → α → β) (x y : NArr α) (hs : x.shape.prod ≠ y.shape.prod)
    (hx : b = .torch ∨ x.shape ≠ []) (hy : b = .torch ∨ y.shape ≠ []) :
    evalFlat b chunk f x y = .error .valueError := by
  obtain ⟨fx, e1, h1, _⟩ := flatten_ok b x hx
  obtain ⟨fy, e2, h2, _⟩ := flatten_ok b y hy
  have hv : vmapPair b chunk f fx fy = .error .valueError := by
    simp only [vmapPair]
    rw [if_pos (Or.inl (by rw [h1, h2]; simpa using hs))]
  simp only [evalFlat, e1, e2, hv, bind, Except.bind]

/-- The matrix-valued version, used for Jacobians: entry `(i, j)` of the matrix at a position is at
index `[..., i, j]`. -/
theorem C73_matrix_partial {α β : Type} [Inhabited β] (b : Backend) (chunk : Option ℕ)
    (hc : chunk ≠ some 0) (f : α → α → Bool → Bool → β) (x y : NArr α) (hs : x.shape = y.shape)
    (hb : b = .torch ∨ x.shape ≠ []) :
    ∃ r, evalFlat22 b chunk f x y = .ok r ∧ r.shape = x.shape ++ [2, 2] ∧
      ∀ idx, InRange x.shape idx → ∀ i j, i < 2 → j < 2 →
        r.get (idx ++ [i, j]) = f (x.get idx) (y.get idx) (i = 1) (j = 1) := by
  obtain ⟨fx, e1, h1, l1⟩ := flatten_ok b x hb
  obtain ⟨fy, e2, h2, l2⟩ := flatten_ok b y (hs ▸ hb)
  have hv := vmapPair_flatten b chunk hc f x y fx fy (by rw [hs]) h1 h2 l1 l2
  have hp : (x.shape ++ [2, 2]).prod = [x.shape.prod, 2, 2].prod := by simp
  simp only [evalFlat22, e1, e2, hv, bind, Except.bind, NArr.reshape, List.length_map,
    List.length_range, hp, if_true]
  refine ⟨_, rfl, rfl, fun idx hi i j h2i h2j => ?_⟩
  have hlt := ravel_lt hi
  simp only [ravel_append22 hi]
  have hu : unravel [x.shape.prod, 2, 2] (ravel x.shape idx * 4 + (i * 2 + j))
      = [ravel x.shape idx, i, j] := by
    simp only [unravel, List.prod_cons, List.prod_nil]
    have a1 : (ravel x.shape idx * 4 + (i * 2 + j)) / (2 * (2 * 1)) = ravel x.shape idx := by omega
    have a2 : (ravel x.shape idx * 4 + (i * 2 + j)) % (2 * (2 * 1)) = i * 2 + j := by omega
    have a3 : (i * 2 + j) / (2 * 1) = i := by omega
    have a4 : (i * 2 + j) % (2 * 1) / 1 = j := by omega
    rw [a1, a2, a3, a4]
  rw [hu]
  simp only
  rw [List.getElem?_map, List.getElem?_range hlt]
  simp only [Option.map_some, Option.elim, ← hs, unravel_ravel hi]
  have b1 : (decide (i ≠ 0)) = decide (i = 1) := by
    interval_cases i <;> rfl
  have b2 : (decide (j ≠ 0)) = decide (j = 1) := by
    interval_cases j <;> rfl
  rw [b1, b2]

/-- The default convergence is half the trace of the Hessian of the potential at each position. -/
theorem C73_convergence_partial {K : Type} [Field K] [Inhabited K] (b : Backend) (chunk : Option ℕ)
    (hc : chunk ≠ some 0) (hess : K → K → Bool → Bool → K) (x y : NArr K) (hs : x.shape = y.shape)
    (hb : b = .torch ∨ x.shape ≠ []) :
    ∃ r, defaultConvergence b chunk hess x y = .ok r ∧ r.shape = x.shape ∧
      ∀ idx, InRange x.shape idx → r.get idx
        = (hess (x.get idx) (y.get idx) false false + hess (x.get idx) (y.get idx) true true) / 2 := by
  obtain ⟨H, e, hsh, hg⟩ := C73_matrix_partial b chunk hc hess x y hs hb
  have hd : H.shape.dropLast.dropLast = x.shape := by
    rw [hsh]
    have : x.shape ++ [2, 2] = (x.shape ++ [2]) ++ [2] := by simp
    rw [this, List.dropLast_concat, List.dropLast_concat]
  simp only [defaultConvergence, e, bind, Except.bind, NArr.reshape, hd, if_true]
  refine ⟨_, rfl, rfl, fun idx hi => ?_⟩
  simp only [unravel_ravel hi]
  rw [hg idx hi 0 0 (by omega) (by omega), hg idx hi 1 1 (by omega) (by omega)]
  simp only [Nat.zero_ne_one, decide_false, decide_true]
  ring

/-- A 2x3 grid in chunks of four: element `[1, 2]` is the function of elements `[1, 2]`. -/
example : ∃ r, evalFlat .torch (some 4) (fun a b : ℚ => a * 10 + b)
    ⟨[2, 3], fun | [i, j] => i + 2 * j | _ => 0⟩ ⟨[2, 3], fun | [i, j] => i * j | _ => 0⟩ = .ok r ∧
    r.shape = [2, 3] ∧ r.get [1, 2] = 52 := by
  obtain ⟨r, e, hs, hg⟩ := C73_pointwise_partial (.torch) (some 4) (by simp)
    (fun a b : ℚ => a * 10 + b) ⟨[2, 3], fun | [i, j] => i + 2 * j | _ => 0⟩
    ⟨[2, 3], fun | [i, j] => i * j | _ => 0⟩ rfl (Or.inl rfl)
  refine ⟨r, e, hs, ?_⟩
  rw [hg [1, 2] (by simp [InRange])]
  norm_num

/-! ### vmap_n -/

/-- The function looks at its argument only through elements at indices of the right length. -/
def VFun.Respects {α β : Type} (f : VFun α β) : Prop :=
  ∀ x y : NArr α, x.shape = y.shape →
    (∀ idx, idx.length = x.shape.length → x.get idx = y.get idx) → f.val x = f.val y

/-- A position with the batch indices (from position `m` of `idx`) put in at axis `k`. -/
private def slab {α : Type} (x : NArr α) (k m d : ℕ) (idx : List ℕ) : NArr α :=
  ⟨x.shape.take k ++ x.shape.drop (k + d),
    fun r => x.get (r.take k ++ (idx.drop m).take d ++ r.drop k)⟩

private theorem vmap1_iter {α β : Type} (k m : ℕ) (f : VFun α β) (hf : f.Respects) :
    ∀ (d : ℕ) (x : NArr α) (idx : List ℕ), k + d ≤ x.shape.length → m + d ≤ idx.length →
      ((vmap1 k m)^[d] f).val x idx
        = f.val (slab x k m d idx) (idx.take m ++ idx.drop (m + d)) := by
  intro d
  induction d with
  | zero =>
    intro x idx hx hi
    simp only [Function.iterate_zero, id, Nat.add_zero, List.take_append_drop]
    have : f.val x = f.val (slab x k m 0 idx) := by
      apply hf
      · simp [slab]
      · intro r _
        simp [slab]
    rw [this]
  | succ d ih =>
    intro x idx hx hi
    have hm : m < idx.length := by omega
    have hkx : k < x.shape.length := by omega
    rw [Function.iterate_succ_apply']
    have hval : (vmap1 k m ((vmap1 k m)^[d] f)).val x idx
        = ((vmap1 k m)^[d] f).val (x.slice k (idx[m]?.getD 0)) (idx.eraseIdx m) := rfl
    rw [hval, ih _ _ (by
        simp only [NArr.slice, List.length_eraseIdx_of_lt hkx]; omega) (by
        rw [List.length_eraseIdx_of_lt hm]; omega)]
    have hidx : (idx.eraseIdx m).take m ++ (idx.eraseIdx m).drop (m + d)
        = idx.take m ++ idx.drop (m + (d + 1)) := by
      rw [eraseIdx_take]
      congr 1
      rw [← List.drop_drop, eraseIdx_drop, List.drop_drop]
      congr 1; omega
    rw [hidx]
    have hs : f.val (slab (x.slice k (idx[m]?.getD 0)) k m d (idx.eraseIdx m))
        = f.val (slab x k m (d + 1) idx) := by
      apply hf
      · simp only [slab, NArr.slice, eraseIdx_take]
        congr 1
        rw [← List.drop_drop, eraseIdx_drop, List.drop_drop]
        congr 1; omega
      · intro r hr
        simp only [slab, NArr.slice, List.length_append, List.length_take, List.length_drop,
          List.length_eraseIdx_of_lt hkx] at hr ⊢
        have hrk : k ≤ r.length := by omega
        rw [insertIdx_take _ _ _ _ hrk, eraseIdx_drop, drop_take_cons _ _ _ hm,
          List.getElem?_eq_getElem hm, Option.getD_some]
    rw [hs]

/-- Element `idx` of `vmap_n(f, depth, in_dims=k, out_dims=m)(x)` is element `idx` without its `depth`
entries from position `m` on, of `f` applied to the part of `x` with those entries fixed from axis `k`
on: the batch axes keep their order and move from `k` to `m`. -/
theorem C74_index {α β : Type} (f : VFun α β) (hf : f.Respects) (depth : ℤ) (hd : 1 ≤ depth) (k m : ℕ)
    (x : NArr α) (hx : k + depth.toNat ≤ x.shape.length) :
    ∃ g, vmapN f depth k m = .ok g ∧ ∀ before batch after : List ℕ, before.length = m →
      batch.length = depth.toNat →
      g.val x (before ++ batch ++ after)
        = f.val ⟨x.shape.take k ++ x.shape.drop (k + depth.toNat),
            fun r => x.get (r.take k ++ batch ++ r.drop k)⟩ (before ++ after) := by
  refine ⟨_, by simp [vmapN, not_lt.2 hd]; rfl, fun before batch after hb hbt => ?_⟩
  rw [vmap1_iter k m f hf _ x _ hx (by simp [hb, hbt]), slab]
  have h1 : (before ++ batch ++ after).take m = before := by
    rw [List.append_assoc, ← hb, List.take_left']; rfl
  have h2 : (before ++ batch ++ after).drop m = batch ++ after := by
    rw [List.append_assoc, ← hb, List.drop_left']; rfl
  have h3 : (before ++ batch ++ after).drop (m + depth.toNat) = after := by
    rw [← List.drop_drop, h2, ← hbt, List.drop_left']; rfl
  have h4 : (batch ++ after).take depth.toNat = batch := by
    rw [← hbt, List.take_left']; rfl
  rw [h1, h2, h3, h4]

/-- With the default axes nothing needs to be assumed of the function: `vmap_n(f, d)(x)[i..., j...]`
is `f(x[i...])[j...]` with `d` indices `i`. -/
theorem C74_default {α β : Type} (f : VFun α β) (depth : ℤ) (hd : 1 ≤ depth) (x : NArr α) :
    ∃ g, vmapN f depth 0 0 = .ok g ∧ ∀ batch rest : List ℕ, batch.length = depth.toNat →
      g.val x (batch ++ rest)
        = f.val ⟨x.shape.drop depth.toNat, fun r => x.get (batch ++ r)⟩ rest := by
  refine ⟨_, by simp [vmapN, not_lt.2 hd]; rfl, ?_⟩
  intro batch rest hb
  have key : ∀ (d : ℕ) (x : NArr α) (batch : List ℕ), batch.length = d →
      ((vmap1 0 0)^[d] f).val x (batch ++ rest)
        = f.val ⟨x.shape.drop d, fun r => x.get (batch ++ r)⟩ rest := by
    intro d
    induction d with
    | zero =>
      intro x batch hb
      have hb0 : batch = [] := List.length_eq_zero_iff.1 hb
      subst hb0
      rfl
    | succ d ih =>
      intro x batch hb
      obtain ⟨i, bs, rfl⟩ : ∃ i bs, batch = i :: bs := by
        cases batch with
        | nil => simp at hb
        | cons i bs => exact ⟨i, bs, rfl⟩
      rw [Function.iterate_succ_apply']
      have hval : (vmap1 0 0 ((vmap1 0 0)^[d] f)).val x (i :: bs ++ rest)
          = ((vmap1 0 0)^[d] f).val (x.slice 0 i) (bs ++ rest) := rfl
      rw [hval, ih _ _ (by simpa using hb)]
      congr 1
      simp only [NArr.slice, List.insertIdx_zero, NArr.mk.injEq, List.cons_append, and_true]
      cases x.shape <;> simp
  exact key _ x batch hb

/-- The shape: the batch sizes are taken from axis `k` on and put back, in order, from axis `m` on. -/
theorem C74_shape {α β : Type} (f : VFun α β) (depth : ℤ) (hd : 1 ≤ depth) (k m : ℕ)
    (shape s : List ℕ) (hx : k + depth.toNat ≤ shape.length)
    (hs : f.outShape (shape.take k ++ shape.drop (k + depth.toNat)) = .ok s) (hm : m ≤ s.length) :
    ∃ g, vmapN f depth k m = .ok g ∧
      g.outShape shape
        = .ok (s.take m ++ (shape.drop k).take depth.toNat ++ s.drop m) := by
  refine ⟨_, by simp [vmapN, not_lt.2 hd]; rfl, ?_⟩
  have key : ∀ (d : ℕ) (shape : List ℕ), k + d ≤ shape.length →
      f.outShape (shape.take k ++ shape.drop (k + d)) = .ok s →
      ((vmap1 k m)^[d] f).outShape shape
        = .ok (s.take m ++ (shape.drop k).take d ++ s.drop m) := by
    intro d
    induction d with
    | zero =>
      intro shape _ h
      simpa using h
    | succ d ih =>
      intro shape hl h
      have hkl : k < shape.length := by omega
      rw [Function.iterate_succ_apply']
      have hi := ih (shape.eraseIdx k) (by rw [List.length_eraseIdx_of_lt hkl]; omega) (by
        rw [eraseIdx_take, ← List.drop_drop, eraseIdx_drop, List.drop_drop, ← h]
        congr 3; omega)
      simp only [vmap1, List.getElem?_eq_getElem hkl]
      rw [hi]
      simp only
      rw [if_pos (by simp; omega), insertIdx_take _ _ _ _ hm, eraseIdx_drop,
        drop_take_cons _ _ _ hkl]
  exact key _ shape hx hs

/-- Arrays with too few dimensions raise ValueError, as does `depth < 1`. -/
theorem C74_rejects {α β : Type} (f : VFun α β) (depth : ℤ) (k m : ℕ) :
    (depth < 1 → vmapN f depth k m = .error .valueError) ∧
    (1 ≤ depth → ∀ shape : List ℕ, shape.length < k + depth.toNat →
      ∃ g, vmapN f depth k m = .ok g ∧ g.outShape shape = .error .valueError) := by
  refine ⟨fun h => by simp [vmapN, h], fun hd shape hl => ⟨_, by simp [vmapN, not_lt.2 hd]; rfl, ?_⟩⟩
  have key : ∀ (d : ℕ), 0 < d → ∀ (shape : List ℕ), shape.length < k + d →
      ((vmap1 k m)^[d] f).outShape shape = .error .valueError := by
    intro d
    induction d with
    | zero => intro h; omega
    | succ d ih =>
      intro _ shape hl
      rw [Function.iterate_succ_apply']
      by_cases hk : k < shape.length
      · have hd : 0 < d := by omega
        have hi := ih hd (shape.eraseIdx k) (by rw [List.length_eraseIdx_of_lt hk]; omega)
        simp only [vmap1, List.getElem?_eq_getElem hk]
        rw [hi]
      · simp only [vmap1, List.getElem?_eq_none (not_lt.1 hk)]
  exact key _ (by omega) shape hl

/-- The sum over the last axis, mapped twice. -/
private def sumLast : VFun ℚ ℚ where
  outShape s := .ok s.dropLast
  val x idx := ((List.range (x.shape.getLast?.getD 0)).map fun i => x.get (idx ++ [i])).sum

example : ∃ g, vmapN sumLast 2 0 0 = .ok g ∧ g.outShape [2, 3, 4] = .ok [2, 3] ∧
    g.val ⟨[2, 3, 4], fun | [i, j, k] => 100 * i + 10 * j + k | _ => 0⟩ [1, 2] = 486 := by
  refine ⟨_, rfl, rfl, ?_⟩
  decide +kernel

/-- Mapped over the first axis, with the batch axis last. -/
example : ∃ g, vmapN sumLast 1 0 1 = .ok g ∧ g.outShape [2, 3, 4] = .ok [3, 2] ∧
    g.val ⟨[2, 3, 4], fun | [i, j, k] => 100 * i + 10 * j + k | _ => 0⟩ [2, 1] = 486 := by
  refine ⟨_, rfl, rfl, ?_⟩
  decide +kernel

end Caustics

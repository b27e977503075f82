import Verif.Lemmas.ToDevice
import Mathlib.Algebra.Order.Archimedean.Real.Basic
import Mathlib.Algebra.Order.Floor.Ring
import Mathlib.Tactic.NormNum

/-! C124: what `obj.to(device, dtype)` converts, and for how long. -/

namespace Caustics

open Dev

variable {Cfg : Type} {L : Lib Cfg}

/-- Every array held by `r` or anything below it is on device `d`. -/
def OnDevice (s : Store Cfg) (r d : ℕ) : Prop := ∀ j, Reach s r j → ∀ a ∈ (s j).own.arrays, a.dev = d

/-! A small set of objects for the examples: cosmology 0, parameters 1 and 2, a simulator 3 above them, and 5, a
pixelated convergence lens with its map 4, sharing the cosmology. Single precision keeps integers only. -/

noncomputable def toyLib : Lib ℕ where
  rnd t x := match t with
    | .f32 => (⌊x⌋ : ℝ)
    | _ => x
  idem t x := by cases t <;> simp
  widen x := rfl
  fft l := l
  defDev := 0
  defDt := .f64
  grid n := ([(n : ℝ)], [(n : ℝ)], [1])

noncomputable def toyStore : Store ℕ
  | 0 => ⟨.cosmology ⟨0, .f32, false, [1, 2]⟩ ⟨0, .f32, false, [3, 4]⟩, []⟩
  | 1 => ⟨.param (some ⟨0, .f64, true, [0]⟩), []⟩
  | 2 => ⟨.param (some ⟨0, .f64, true, [0]⟩), []⟩
  | 3 => ⟨buildGrid toyLib 7 1 2, [0, 1, 2]⟩
  | 4 => ⟨.param (some ⟨0, .f64, false, [1]⟩), []⟩
  | 5 => ⟨setMode toyLib .fft (.pixConv ⟨0, .f64, false, [1 / 2]⟩ ⟨0, .f64, false, [1 / 2]⟩ ⟨0, .f64, false, [1 / 2]⟩
      none none none .fft 4), [0, 4]⟩
  | _ => ⟨.plain, []⟩

theorem toyStore_wf : WF toyStore := by
  intro i c hc
  match i with
  | 0 | 1 | 2 | 4 => simp [toyStore] at hc
  | 3 => simp [toyStore] at hc; omega
  | 5 => simp [toyStore] at hc; omega
  | n + 6 => simp [toyStore] at hc

/-- `obj.to` converts the arrays of the object and of everything below it, objects reached along several paths included,
and touches nothing else. -/
theorem C124_graph (dev : Option ℕ) (dt : Option DType) (s : Store Cfg) (hs : WF s) (r j : ℕ) :
    (Reach s r j → (objTo L dev dt s r j).own = ownTo L dev dt (s j).own) ∧
    (¬Reach s r j → objTo L dev dt s r j = s j) ∧ (objTo L dev dt s r j).children = (s j).children := by
  classical
  have h := congrFun (toRec_eq (L := L) dev dt _ s r hs (Nat.lt_succ_self r)) j
  refine ⟨fun hr => ?_, fun hr => ?_, step_children s hs (.move r dev dt) j⟩
  · rw [objTo, h]; simp [hr, conv]
  · rw [objTo, h]; simp [hr]

/-- Converting the simulator leaves the map of the lens alone and converts the cosmology below both. -/
example : objTo toyLib (some 1) none toyStore 3 4 = toyStore 4 ∧
    (objTo toyLib (some 1) none toyStore 3 0).own = ownTo toyLib (some 1) none (toyStore 0).own := by
  refine ⟨(C124_graph _ _ _ toyStore_wf 3 4).2.1 ?_, (C124_graph _ _ _ toyStore_wf 3 0).1 ?_⟩
  · intro h
    rcases Reach.iff.1 h with h | ⟨c, hc, h⟩
    · omega
    · simp only [toyStore, List.mem_cons, List.not_mem_nil, or_false] at hc
      rcases hc with rfl | rfl | rfl <;> (rcases Reach.iff.1 h with h | ⟨c, hc, h⟩ <;> [omega; simp [toyStore] at hc])
  · exact Reach.iff.2 (.inr ⟨0, by simp [toyStore], .refl⟩)

/-- After `obj.to(device=d)` every array is on `d`. -/
theorem C124_device (d : ℕ) (dt : Option DType) (s : Store Cfg) (hs : WF s) (r : ℕ) :
    OnDevice (objTo L (some d) dt s r) r d := by
  intro j hj a ha
  rw [Reach.congr fun i => (C124_graph (L := L) (some d) dt s hs r i).2.2] at hj
  rw [(C124_graph _ _ s hs r j).1 hj] at ha
  obtain ⟨b, -, t, rfl⟩ := ownTo_arrays _ _ _ ha
  rfl

example : OnDevice (objTo toyLib (some 1) (some .f32) toyStore 5) 5 1 := C124_device 1 _ _ toyStore_wf 5

/-- The claim: it stays so while convolution modes and settings of simulators are assigned. -/
def C124_statement : Prop :=
  ∀ (Cfg : Type) (L : Lib Cfg) (s : Store Cfg) (r d : ℕ) (dt : Option DType) (ops : List (Op Cfg)), WF s →
    (∀ i dev dt', Op.move i dev dt' ∉ ops) → OnDevice (run L (objTo L (some d) dt s r) ops) r d

/-- What holds: it stays so under every sequence of conversions that name no other device, of convolution modes, and of
settings of simulators that are not below the object, or if `d` is the device new arrays are created on. -/
theorem C124_device_partial (s : Store Cfg) (hs : WF s) (r d : ℕ) (h : OnDevice s r d) (ops : List (Op Cfg))
    (hto : ∀ i d' dt, Op.move i (some d') dt ∈ ops → d' = d)
    (hsim : ∀ i c, Op.sim i c ∈ ops → Reach s r i → L.defDev = d) :
    OnDevice (run L s ops) r d := by
  have := run_invariant (L := L) (fun j o => Reach s r j → ∀ a ∈ o.arrays, a.dev = d) ops ?_ ?_ ?_ s hs h
  · intro j hj
    rw [Reach.congr (run_children s hs ops)] at hj
    exact this j hj
  · intro i dev dt hm j o ho hj b hb
    obtain ⟨a, ha, t, rfl⟩ := ownTo_arrays _ _ _ hb
    cases dev with
    | none => exact ho hj a ha
    | some d' => exact hto i d' dt hm
  · intro i m _ o ho hj b hb
    obtain ⟨a, ha, rfl | rfl⟩ := setMode_arrays _ _ hb
    · exact ho hj b ha
    · exact ho hj a ha
  · intro i c hm o ho hj b hb
    cases o with
    | lensSource gx gy w c' x0 y0 =>
      have e := hsim i c hm hj
      simp only [setSim, buildGrid, Own.arrays, List.mem_cons, List.not_mem_nil, or_false] at hb
      rcases hb with rfl | rfl | rfl <;> exact e
    | _ => exact ho hj b hb

/-- Modes may be changed and the precision lowered. -/
example : OnDevice (run toyLib (objTo toyLib (some 1) none toyStore 5) [.mode 5 .conv2d, .move 5 none (some .f32), .mode 5 .fft])
    5 1 := by
  refine C124_device_partial _ (toyStore_wf.congr fun i => (C124_graph (some 1) none _ toyStore_wf 5 i).2.2) 5 1
    (C124_device 1 none _ toyStore_wf 5) _ ?_ ?_ <;> simp

/-- A setting assigned to a simulator after it was moved: the new grid is where new arrays are created, not where the
simulator was moved to. -/
theorem sim_after (s : Store Cfg) (hs : WF s) (r d : ℕ) (dt : Option DType) {gx gy w : TArr} {c : Cfg} {x0 y0 : ℕ}
    (hr : (s r).own = .lensSource gx gy w c x0 y0) (c' : Cfg) :
    (step L (objTo L (some d) dt s r) (.sim r c') r).own = buildGrid L c' x0 y0 := by
  simp only [step, Function.update_self]
  rw [(C124_graph _ _ s hs r r).1 .refl, hr]
  rfl

/-- The claim fails. -/
theorem C124_fails : ¬C124_statement := by
  intro h
  have h1 := h ℕ toyLib toyStore 3 1 none [.sim 3 9] toyStore_wf (by simp)
  have h2 := h1 3 .refl ⟨0, .f64, false, [9]⟩ (by
    show _ ∈ (step toyLib (objTo toyLib (some 1) none toyStore 3) (.sim 3 9) 3).own.arrays
    rw [sim_after toyStore toyStore_wf 3 1 none (gx := _) rfl 9]
    simp [buildGrid, Own.arrays, toyLib])
  exact absurd h2 (by norm_num)

/-- The simulator runs on the device it was moved to ... -/
theorem C124_call (s : Store Cfg) (hs : WF s) (r d : ℕ) (dt : Option DType) {gx gy w vx vy : TArr} {c : Cfg} {x0 y0 : ℕ}
    (hr : (s r).own = .lensSource gx gy w c x0 y0) (h0 : x0 ∈ (s r).children) (h1 : y0 ∈ (s r).children)
    (hx : (s x0).own = .param (some vx)) (hy : (s y0).own = .param (some vy)) :
    simGrid (objTo L (some d) dt s r) r = some (d, d) := by
  have e := (C124_graph (L := L) (some d) dt s hs r r).1 .refl
  have ex := (C124_graph (L := L) (some d) dt s hs r x0).1 (Reach.iff.2 (.inr ⟨x0, h0, .refl⟩))
  have ey := (C124_graph (L := L) (some d) dt s hs r y0).1 (Reach.iff.2 (.inr ⟨y0, h1, .refl⟩))
  rw [hr] at e
  rw [hx] at ex
  rw [hy] at ey
  simp only [ownTo, Option.map_some] at e ex ey
  simp only [simGrid, paramValue, e, ex, ey]
  simp [meet, backendTo]

example : simGrid (objTo toyLib (some 1) none toyStore 3) 3 = some (1, 1) :=
  C124_call toyStore toyStore_wf 3 1 none rfl (by simp [toyStore]) (by simp [toyStore]) rfl rfl

/-- ... and raises there after any of its settings has been assigned, whatever the value: for every simulator, every
device other than the CPU and other than the one new arrays are created on. -/
theorem C124_fails_call (s : Store Cfg) (hs : WF s) (r d : ℕ) (hd : d ≠ 0) (hdef : L.defDev ≠ d) (dt : Option DType)
    {gx gy w vx vy : TArr} {c : Cfg} {x0 y0 : ℕ} (hr : (s r).own = .lensSource gx gy w c x0 y0)
    (h0 : x0 ∈ (s r).children) (h1 : y0 ∈ (s r).children) (hx : (s x0).own = .param (some vx))
    (hy : (s y0).own = .param (some vy)) (c' : Cfg) :
    simGrid (run L s [.move r (some d) dt, .sim r c']) r = none := by
  have n0 : x0 ≠ r := (hs r x0 h0).ne
  have n1 : y0 ≠ r := (hs r y0 h1).ne
  have e := sim_after (L := L) s hs r d dt hr c'
  have ex := (C124_graph (L := L) (some d) dt s hs r x0).1 (Reach.iff.2 (.inr ⟨x0, h0, .refl⟩))
  have ey := (C124_graph (L := L) (some d) dt s hs r y0).1 (Reach.iff.2 (.inr ⟨y0, h1, .refl⟩))
  rw [hx] at ex
  rw [hy] at ey
  simp only [ownTo, Option.map_some] at ex ey
  have px : paramValue (run L s [.move r (some d) dt, .sim r c']) x0 = some (backendTo L (some d) dt vx) := by
    show paramValue (step L (objTo L (some d) dt s r) (.sim r c')) x0 = _
    simp only [paramValue, step, Function.update_of_ne n0, ex]
  have py : paramValue (run L s [.move r (some d) dt, .sim r c']) y0 = some (backendTo L (some d) dt vy) := by
    show paramValue (step L (objTo L (some d) dt s r) (.sim r c')) y0 = _
    simp only [paramValue, step, Function.update_of_ne n1, ey]
  have er : (run L s [.move r (some d) dt, .sim r c'] r).own = buildGrid L c' x0 y0 := e
  unfold simGrid
  rw [er]
  simp only [buildGrid, px, py]
  have m : meet ⟨L.defDev, L.defDt, false, (L.grid c').1⟩ (backendTo L (some d) dt vx) = none := by
    simp [meet, backendTo, hdef, hd]
  simp [m]

/-- `sim.to(device="cuda"); sim.pixelscale = ...; sim()`. -/
example : simGrid (run toyLib toyStore [.move 3 (some 1) none, .sim 3 9]) 3 = none :=
  C124_fails_call toyStore toyStore_wf 3 1 one_ne_zero (by decide) none rfl (by simp [toyStore]) (by simp [toyStore])
    rfl rfl 9

theorem reach_le {s : Store Cfg} (hs : WF s) {i j : ℕ} (h : Reach s i j) : j ≤ i := by
  induction h with
  | refl => exact le_rfl
  | tail _ hc ih => exact (hs _ _ hc).le.trans ih

/-- Moving one position parameter alone (`sim.x0.to(device="cuda")`) leaves a simulator on the CPU that raises: the
parameter is a single number, but it is not on the CPU.  A simulator on the other device whose parameter stayed on the CPU
runs, and which of the two arrays stands first in an operation never matters. -/
theorem C124_call_parameter (s : Store Cfg) (hs : WF s) (r d : ℕ) (hd : d ≠ 0) (dt : Option DType)
    {gx gy w vx vy : TArr} {c : Cfg} {x0 y0 : ℕ} (hr : (s r).own = .lensSource gx gy w c x0 y0)
    (h0 : x0 ∈ (s r).children) (hx : (s x0).own = .param (some vx)) (hy : (s y0).own = .param (some vy))
    (hg : gx.dim0 = false) :
    (gx.dev = 0 → simGrid (objTo L (some d) dt s x0) r = none) ∧
    (gx.dev = d → gy.dev = d → vx.dim0 = true → vx.dev = 0 → vy.dim0 = true → vy.dev = 0 →
      simGrid s r = some (d, d)) ∧
    (∀ a b : TArr, meet a b = meet b a) ∧
    (∀ a b : TArr, a.dev = d → b.dev = 0 → b.dim0 = false → meet a b = none) := by
  have n0 : x0 < r := hs r x0 h0
  refine ⟨fun h => ?_, fun h1 h2 h3 h4 h5 h6 => ?_, fun a b => ?_, fun a b h1 h2 h3 => ?_⟩
  · have er := (C124_graph (L := L) (some d) dt s hs x0 r).2.1 fun h => absurd (reach_le hs h) (by omega)
    have ex := (C124_graph (L := L) (some d) dt s hs x0 x0).1 .refl
    rw [hx] at ex
    simp only [ownTo, Option.map_some] at ex
    unfold simGrid
    rw [er, hr]
    have m : meet gx (backendTo L (some d) dt vx) = none := by simp [meet, backendTo, h, hg, hd, hd.symm]
    have px : paramValue (objTo L (some d) dt s x0) x0 = some (backendTo L (some d) dt vx) := by
      simp only [paramValue, ex]
    simp only [px]
    cases h : paramValue (objTo L (some d) dt s x0) y0 <;> simp [m]
  · unfold simGrid
    rw [hr]
    simp [paramValue, hx, hy, meet, h1, h2, h3, h4, h5, h6, hd]
  · obtain ⟨ad, -, a0, -⟩ := a
    obtain ⟨bd, -, b0, -⟩ := b
    by_cases h : ad = bd
    · simp [meet, h]
    · have h' : ¬bd = ad := fun e => h e.symm
      by_cases e1 : ad = 0
      · have e2 : bd ≠ 0 := fun e => h (e1.trans e.symm)
        simp [meet, e1, e2, e2.symm]
      · by_cases e2 : bd = 0
        · simp [meet, e1, e2, Ne.symm e1]
        · simp [meet, h, h', e1, e2]
  · simp [meet, h1, h2, h3, hd]

example : simGrid (objTo toyLib (some 1) none toyStore 1) 3 = none :=
  (C124_call_parameter toyStore toyStore_wf 3 1 one_ne_zero none rfl (by simp [toyStore]) rfl rfl rfl).1 rfl

/-- Element types after `obj.to(dtype=t)`: every array that is no Fourier kernel has type `t`, the orders of a
multipole stay integers; Fourier kernels keep the type they had. -/
theorem C124_dtype (dev : Option ℕ) (t : DType) (s : Store Cfg) (hs : WF s) (r j : ℕ) (hj : Reach s r j) :
    match (s j).own, (objTo L dev (some t) s r j).own with
    | .param v, .param v' => v'.map TArr.dt = v.map fun _ => t
    | .cosmology _ _, .cosmology x' y' => x'.dt = t ∧ y'.dt = t
    | .multipole _, .multipole m' => m'.dt = .i32
    | .pixConv _ _ _ p a b _ _, .pixConv pot' ax' ay' p' a' b' _ _ => pot'.dt = t ∧ ax'.dt = t ∧ ay'.dt = t ∧
        p'.map TArr.dt = p.map TArr.dt ∧ a'.map TArr.dt = a.map TArr.dt ∧ b'.map TArr.dt = b.map TArr.dt
    | .lensSource _ _ _ _ _ _, .lensSource gx' gy' w' _ _ _ => gx'.dt = t ∧ gy'.dt = t ∧ w'.dt = t
    | .plain, .plain => True
    | _, _ => False := by
  rw [(C124_graph dev (some t) s hs r j).1 hj]
  cases (s j).own with
  | pixConv pot ax ay p a b m k =>
    simp only [ownTo, Option.map_map, Function.comp_def]
    exact ⟨rfl, rfl, rfl, rfl, rfl, rfl⟩
  | param v =>
    simp only [ownTo, Option.map_map, Function.comp_def]
    rfl
  | _ => simp [ownTo, backendTo]

/-- `PixelatedConvergence` in mode `fft`, converted to single precision: the deflection comes out in the precision of the
kernels made at construction, until the mode is assigned again, which is the same mode. -/
theorem C124_fails_dtype (s : Store Cfg) (hs : WF s) (r k : ℕ) {pot ax ay p a b v : TArr}
    (hr : (s r).own = .pixConv pot ax ay (some p) (some a) (some b) .fft k) (hk : k ∈ (s r).children)
    (hv : (s k).own = .param (some v)) (ha : a.dt = .c128) (d : ℕ) :
    deflectionMap L (run L s [.move r (some d) (some .f32)]) r = some (d, .f64) ∧
    deflectionMap L (run L s [.move r (some d) (some .f32), .mode r .fft]) r = some (d, .f32) := by
  have n0 : k ≠ r := (hs r k hk).ne
  have e := (C124_graph (L := L) (some d) (some .f32) s hs r r).1 .refl
  have ex := (C124_graph (L := L) (some d) (some .f32) s hs r k).1 (Reach.iff.2 (.inr ⟨k, hk, .refl⟩))
  rw [hr] at e
  rw [hv] at ex
  simp only [ownTo, Option.map_some] at e ex
  constructor
  · show deflectionMap L (objTo L (some d) (some .f32) s r) r = _
    simp only [deflectionMap, paramValue, e, ex]
    simp [meet, productType, backendTo, ha]
  · show deflectionMap L (step L (objTo L (some d) (some .f32) s r) (.mode r .fft)) r = _
    simp only [deflectionMap, paramValue, step, Function.update_self, Function.update_of_ne n0, e, ex, setMode]
    simp [meet, productType, backendTo, rfft2]

example : deflectionMap toyLib (run toyLib toyStore [.move 5 (some 0) (some .f32)]) 5 = some (0, .f64) ∧
    deflectionMap toyLib (run toyLib toyStore [.move 5 (some 0) (some .f32), .mode 5 .fft]) 5 = some (0, .f32) :=
  C124_fails_dtype toyStore toyStore_wf 5 4 rfl (by simp [toyStore]) rfl rfl 0

/-- The numbers after `obj.to(dtype=t)`: each is the old number rounded to `t` (orders of a multipole: to an integer);
Fourier kernels keep theirs. -/
theorem C124_numbers (dev : Option ℕ) (t : DType) (s : Store Cfg) (hs : WF s) (r j : ℕ) (hj : Reach s r j) :
    match (s j).own, (objTo L dev (some t) s r j).own with
    | .param v, .param v' => v'.map TArr.data = v.map fun a => a.data.map (L.rnd t)
    | .cosmology x y, .cosmology x' y' => x'.data = x.data.map (L.rnd t) ∧ y'.data = y.data.map (L.rnd t)
    | .multipole m, .multipole m' => m'.data = m.data.map (L.rnd .i32)
    | .pixConv pot ax ay p a b _ _, .pixConv pot' ax' ay' p' a' b' _ _ =>
        pot'.data = pot.data.map (L.rnd t) ∧ ax'.data = ax.data.map (L.rnd t) ∧ ay'.data = ay.data.map (L.rnd t) ∧
        p'.map TArr.data = p.map TArr.data ∧ a'.map TArr.data = a.map TArr.data ∧ b'.map TArr.data = b.map TArr.data
    | .lensSource gx gy w _ _ _, .lensSource gx' gy' w' _ _ _ =>
        gx'.data = gx.data.map (L.rnd t) ∧ gy'.data = gy.data.map (L.rnd t) ∧ w'.data = w.data.map (L.rnd t)
    | .plain, .plain => True
    | _, _ => False := by
  rw [(C124_graph dev (some t) s hs r j).1 hj]
  cases (s j).own with
  | pixConv pot ax ay p a b m k =>
    simp only [ownTo, Option.map_map, Function.comp_def]
    exact ⟨rfl, rfl, rfl, rfl, rfl, rfl⟩
  | param v =>
    simp only [ownTo, Option.map_map, Function.comp_def]
    rfl
  | _ => simp [ownTo, backendTo]

/-- The kernel entry 1/2 becomes 0 in the single precision of the example; its Fourier transform keeps it. -/
example : (objTo toyLib none (some .f32) toyStore 5 5).own.arrays.map TArr.data
    = [[0], [0], [0], [1 / 2], [1 / 2], [1 / 2]] := by
  rw [(C124_graph none (some .f32) toyStore toyStore_wf 5 5).1 .refl]
  simp [toyStore, setMode, ownTo, Own.arrays, backendTo, rfft2, toyLib]
  norm_num

/-- `PixelatedConvergence` converted to `t`, single or double precision: in mode `conv2d` the deflection has type `t` and
is on the device; assigning a mode, either one, gives the same. -/
theorem C124_deflection_type (s : Store Cfg) (hs : WF s) (r k : ℕ) {pot ax ay v : TArr} {p a b : Option TArr}
    {m : ConvMode} (hr : (s r).own = .pixConv pot ax ay p a b m k) (hk : k ∈ (s r).children)
    (hv : (s k).own = .param (some v)) (d : ℕ) (t : DType) (ht : t = .f32 ∨ t = .f64) (m' : ConvMode) :
    deflectionMap L (run L s [.move r (some d) (some t), .mode r m']) r = some (d, t) ∧
    (m = .conv2d → ∀ a', a = some a' → deflectionMap L (run L s [.move r (some d) (some t)]) r = some (d, t)) := by
  have n0 : k ≠ r := (hs r k hk).ne
  have e := (C124_graph (L := L) (some d) (some t) s hs r r).1 .refl
  have ex := (C124_graph (L := L) (some d) (some t) s hs r k).1 (Reach.iff.2 (.inr ⟨k, hk, .refl⟩))
  rw [hr] at e
  rw [hv] at ex
  simp only [ownTo, Option.map_some] at e ex
  constructor
  · show deflectionMap L (step L (objTo L (some d) (some t) s r) (.mode r m')) r = _
    cases m' <;> rcases ht with rfl | rfl <;>
      simp only [deflectionMap, paramValue, step, Function.update_self, Function.update_of_ne n0, e, ex, setMode] <;>
      simp [meet, productType, backendTo, rfft2]
  · rintro rfl a' rfl
    show deflectionMap L (objTo L (some d) (some t) s r) r = _
    simp only [deflectionMap, paramValue, e, ex, Option.map_some]
    simp [meet, backendTo]

/-- The mode is what the kernels were made for, but a map in single precision and kernels in double precision, which
`to` on the map alone gives, still run in mode `conv2d`, in the precision of the map. -/
theorem C124_conv2d_map (s : Store Cfg) (hs : WF s) (r k : ℕ) {pot ax ay v a : TArr} {p b : Option TArr}
    (hr : (s r).own = .pixConv pot ax ay p (some a) b .conv2d k) (hk : k ∈ (s r).children)
    (hv : (s k).own = .param (some v)) (hd : v.dev = a.dev) (t : DType) :
    deflectionMap L (objTo L none (some t) s k) r = some (a.dev, t) := by
  have n0 : k < r := hs r k hk
  have er := (C124_graph (L := L) none (some t) s hs k r).2.1 fun h => absurd (reach_le hs h) (by omega)
  have ex := (C124_graph (L := L) none (some t) s hs k k).1 .refl
  rw [hv] at ex
  simp only [ownTo, Option.map_some] at ex
  simp only [deflectionMap, paramValue, er, hr, ex]
  simp [meet, backendTo, hd]

example : deflectionMap toyLib (run toyLib toyStore [.move 5 (some 1) (some .f64), .mode 5 .fft]) 5 = some (1, .f64) :=
  (C124_deflection_type toyStore toyStore_wf 5 4 rfl (by simp [toyStore]) rfl 1 .f64 (.inr rfl) .fft).1

/-- Which calls `x = x.to(...)` lose the object. -/
theorem C124_fails_returns (s : Store Cfg) (r : ℕ) :
    toReturns s r = none ↔ ∃ pot ax ay p a b m k, (s r).own = .pixConv pot ax ay p a b m k := by
  unfold toReturns
  split
  · rename_i h; simp [h]
  · rename_i h
    simp only [reduceCtorEq, false_iff]
    rintro ⟨pot, ax, ay, p, a, b, m, k, e⟩
    exact h _ _ _ _ _ _ _ _ e

example : toReturns toyStore 5 = none ∧ toReturns toyStore 3 = some 3 := ⟨rfl, rfl⟩

/-- Moving without naming an element type changes no number. -/
theorem C124_values (dev : Option ℕ) (s : Store Cfg) (hs : WF s) (r j : ℕ) (h : ∀ i m, (s i).own = .multipole m →
    ∀ x ∈ m.data, L.rnd .i32 x = x) :
    (objTo L dev none s r j).own.arrays.map TArr.data = (s j).own.arrays.map TArr.data := by
  by_cases hj : Reach s r j
  · rw [(C124_graph dev none s hs r j).1 hj]
    have hm := h j
    cases ho : (s j).own with
    | plain => rfl
    | param v => cases v <;> rfl
    | cosmology x y => rfl
    | multipole m =>
      have : m.data.map (L.rnd .i32) = m.data := by
        conv_rhs => rw [← List.map_id m.data]
        exact List.map_congr_left (hm m ho)
      simp [ownTo, Own.arrays, backendTo, this]
    | pixConv pot ax ay p a b m k => cases p <;> cases a <;> cases b <;> rfl
    | lensSource gx gy w c x0 y0 => rfl
  · rw [(C124_graph dev none s hs r j).2.1 hj]

example : (objTo toyLib (some 1) none toyStore 5 5).own.arrays.map TArr.data = (toyStore 5).own.arrays.map TArr.data := by
  refine C124_values (some 1) toyStore toyStore_wf 5 5 fun i m h => ?_
  match i with
  | 0 | 1 | 2 | 3 | 4 | 5 => simp [toyStore, buildGrid, setMode] at h
  | n + 6 => simp [toyStore] at h

/-- The tables of `FlatLambdaCDM` are made in double precision and stored in single precision
(FlatLambdaCDM.py:66-79). No sequence of conversions between the two brings the lost digits back: converting the object
to double precision is not the same as having it in double precision. -/
theorem C124_fails_tables (s : Store Cfg) (hs : WF s) (i : ℕ) (xs ys : List ℝ) {x y : TArr}
    (hi : (s i).own = .cosmology x y) (hx : x.data = xs.map (L.rnd .f32)) (hy : y.data = ys.map (L.rnd .f32))
    (ops : List (Op Cfg)) (hops : ∀ j dev t, Op.move j dev (some t) ∈ ops → t = .f32 ∨ t = .f64) :
    ∃ x' y', (run L s ops i).own = .cosmology x' y' ∧ x'.data = xs.map (L.rnd .f32) ∧ y'.data = ys.map (L.rnd .f32) ∧
      (∀ v ∈ ys, L.rnd .f32 v ≠ L.rnd .f64 v → y'.data ≠ ys.map (L.rnd .f64)) := by
  have key : ∀ (t : Option DType), (t = none ∨ t = some .f32 ∨ t = some .f64) → ∀ dev (a : TArr) (l : List ℝ),
      a.data = l.map (L.rnd .f32) → (backendTo L dev t a).data = l.map (L.rnd .f32) := by
    rintro t (rfl | rfl | rfl) dev a l h
    · exact h
    · simp [backendTo, h, Function.comp_def, L.idem]
    · simp [backendTo, h, Function.comp_def, L.widen]
  have inv := run_invariant (L := L) (fun j o => j = i → ∃ x' y', o = .cosmology x' y' ∧
      x'.data = xs.map (L.rnd .f32) ∧ y'.data = ys.map (L.rnd .f32)) ops ?_ ?_ ?_ s hs
    (by rintro j rfl; exact ⟨x, y, hi, hx, hy⟩) i rfl
  · obtain ⟨x', y', h1, h2, h3⟩ := inv
    refine ⟨x', y', h1, h2, h3, fun v hv hne h => hne ?_⟩
    rw [h3] at h
    exact List.map_inj_left.1 h v hv
  · rintro k dev dt hm j o ho rfl
    obtain ⟨x', y', rfl, h2, h3⟩ := ho rfl
    have ht : dt = none ∨ dt = some .f32 ∨ dt = some .f64 := by
      cases dt with
      | none => exact .inl rfl
      | some t => rcases hops k dev t hm with rfl | rfl <;> simp
    exact ⟨_, _, rfl, key dt ht dev x' xs h2, key dt ht dev y' ys h3⟩
  · rintro k m - o ho rfl
    obtain ⟨x', y', rfl, h2, h3⟩ := ho rfl
    exact ⟨x', y', rfl, h2, h3⟩
  · rintro k c - o ho rfl
    obtain ⟨x', y', rfl, h2, h3⟩ := ho rfl
    exact ⟨x', y', rfl, h2, h3⟩

/-- A table entry 2.5, kept as 2 by the single precision of the example. -/
example : ∃ x' y', (run toyLib (Function.update toyStore 0
      ⟨.cosmology ⟨0, .f32, false, [1]⟩ ⟨0, .f32, false, [2]⟩, []⟩) [.move 3 none (some .f64)] 0).own = .cosmology x' y' ∧
    y'.data ≠ [5 / 2] := by
  have hw : WF (Function.update toyStore 0 ⟨.cosmology ⟨0, .f32, false, [1]⟩ ⟨0, .f32, false, [2]⟩, []⟩) := by
    refine toyStore_wf.congr fun i => ?_
    by_cases h : i = 0
    · subst h; simp [toyStore]
    · simp [h]
  have f : ⌊(5 / 2 : ℝ)⌋ = 2 := by
    rw [Int.floor_eq_iff]; norm_num
  obtain ⟨x', y', h1, -, -, h4⟩ := C124_fails_tables (L := toyLib) _ hw 0 [1] [5 / 2]
    (x := ⟨0, .f32, false, [1]⟩) (y := ⟨0, .f32, false, [2]⟩) (by simp) (by simp [toyLib]) (by simp [toyLib, f])
    [.move 3 none (some .f64)] (by simp +contextual)
  refine ⟨x', y', h1, ?_⟩
  have := h4 (5 / 2) (by simp) (by simp only [toyLib, f]; norm_num)
  simpa [toyLib] using this

end Caustics

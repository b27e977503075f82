import Verif.Model.SameRedshift
import Verif.Model.RangeNan
import Verif.Props.TNFWPoint

/-!
C136, continued: the helper functions of the NFW and TNFW lenses at a radius that is infinite or not a number.
-/

namespace Caustics

open Flt Real

/-- What `_f_nfw`, `_g_nfw`, `_h_nfw` and `_F_tnfw` return for NaN and infinity.  Of these only `_f_nfw` turns NaN into a
number (the last branch of its nested `where`), and at infinity the convergence of the NFW lens is NaN where that of the TNFW
lens has its limit. -/
theorem C136_halo_helpers : nfwFFlt nan = fin 0 ∧ nfwGFlt nan = nan ∧ nfwHFlt nan = nan ∧ tnfwFFlt nan = nan ∧
    nfwFFlt pinf = nan ∧ nfwGFlt pinf = pinf ∧ nfwHFlt pinf = pinf ∧ tnfwFFlt pinf = fin 0 := by
  have a1 : pinf - fin 1 = pinf := rfl
  have a2 : pinf + fin 1 = pinf := rfl
  have a3 : pinf / pinf = nan := rfl
  have a4 : pinf.sq = pinf := rfl
  have a5 : pinf.sqrt = pinf := rfl
  have a6 : Flt.arccos (fin 0) = fin (π / 2) := by
    simp [Flt.arccos]
  have a7 : pinf / fin 2 = pinf := by
    show (if (2 : ℝ) < 0 then ninf else pinf) = _
    simp
  have a8 : Flt.log pinf = pinf := rfl
  have a9 : ∀ a, fin a / pinf = fin 0 := fun _ => rfl
  have a10 : ∀ a, pinf + fin a = pinf := fun _ => rfl
  refine ⟨?_, ?_, ?_, ?_, ?_, ?_, ?_, ?_⟩
  · simp [nfwFFlt, gtc, ltc]
  · simp [nfwGFlt]
  · simp [nfwHFlt]
  · simp [tnfwFFlt, gtc, ltc]
  · simp only [nfwFFlt, gtc, if_true, clampMin, a1, a2, a3, a4, a5]
    rfl
  · simp only [nfwGFlt, gtc, if_true, clampMin, a6, a7, a8, a4, a9]
    rfl
  · simp only [nfwHFlt, gtc, if_true, clampMin, a1, a4, a5, a6, a7, a8, a9, a10]
  · simp only [tnfwFFlt, gtc, ltc, if_true, if_false, clampMin, a1, a4, a5, a6, a9]

/-- Half the scale radius away the helper is the real function. -/
example : tnfwFFlt (fin (1 / 2)) = fin (tnfwF (1 / 2)) := tnfwFFlt_fin (by norm_num)

end Caustics

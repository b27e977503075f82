import Verif.Model.AutoDiff

/-!
The lens and source functions as programs for `Model/AutoDiff`.  A program's variables are the position, the centre, the
softening and then the other arguments; a local variable of the Python function is a `letE`, and inside its scope it is
variable 0 while every earlier variable moves up by one.
-/

open Real

namespace Caustics

namespace Ex

/-- Variable `i`. -/
abbrev v {n : ℕ} [NeZero n] (i : Fin n) : Ex n := .var i

/-- The start of most lens functions, e.g. lenses/func/sis.py:54-55: variables `x, y, x0, y0, s, ...` become
`R, y - y0, x - x0, x, y, x0, y0, s, ...` with `R = sqrt((x - x0)**2 + (y - y0)**2) + s`. -/
def centred {n : ℕ} (body : Ex (n + 8)) : Ex (n + 5) :=
  letE (v 0 - v 2) (letE (v 2 - v 4) (letE (un .sqrt (un .sq (v 1) + un .sq (v 0)) + v 6) body))

end Ex

open Ex

/-! ### Singular isothermal sphere: variables `x, y, x0, y0, s, Rein` -/

/-- lenses/func/sis.py:56. -/
def sisX : Ex 6 := centred (v 8 * v 2 / v 0)

/-- lenses/func/sis.py:57. -/
def sisY : Ex 6 := centred (v 8 * v 1 / v 0)

/-- lenses/func/sis.py:105-107. -/
def sisPot : Ex 6 := centred (v 8 * v 0)

/-- lenses/func/sis.py:154-156. -/
noncomputable def sisConv : Ex 6 := centred (const 0.5 * v 8 / v 0)

/-! ### Point mass: variables `x, y, x0, y0, s, Rein` -/

/-- lenses/func/point.py:58. -/
def pointX : Ex 6 := centred (v 2 * un .sq (v 8) / un .sq (v 0))

/-- lenses/func/point.py:59. -/
def pointY : Ex 6 := centred (v 1 * un .sq (v 8) / un .sq (v 0))

/-- lenses/func/point.py:108-110. -/
def pointPot : Ex 6 := centred (un .sq (v 8) * un .log (v 0))

/-! ### NFW -/

/-- lenses/func/nfw.py:118-141, of variable 0. -/
noncomputable def nfwFEx {n : ℕ} : Ex (n + 1) :=
  letE (clampMin (v 0) (1 + 1e-6)) <| letE (clampMax (v 1) (1 - 1e-6)) <|
  ite .lt (const 1) (v 2)
    (const 1 - const 2 * un .atan (un .sqrt ((v 1 - const 1) / (v 1 + const 1))) / un .sqrt (un .sq (v 1) - const 1))
    (ite .lt (v 2) (const 1)
      (const 1 - const 2 * un .atanh (un .sqrt ((const 1 - v 0) / (const 1 + v 0))) / un .sqrt (const 1 - un .sq (v 0)))
      (const 0))

/-- lenses/func/nfw.py:144-169, of variable 0. -/
noncomputable def nfwGEx {n : ℕ} : Ex (n + 1) :=
  letE (clampMin (v 0) (1 + 1e-6)) <| letE (clampMax (v 1) (1 - 1e-6)) <|
  un .sq (un .log (v 2 / const 2)) +
    ite .lt (const 1) (v 2) (un .sq (un .acos (const 1 / v 1)))
      (ite .lt (v 2) (const 1) (-un .sq (un .acosh (const 1 / v 0))) (const 0))

/-- lenses/func/nfw.py:172-197, of variable 0. -/
noncomputable def nfwHEx {n : ℕ} : Ex (n + 1) :=
  letE (clampMin (v 0) (1 + 1e-6)) <| letE (clampMax (v 1) (1 - 1e-6)) <|
  un .log (v 2 / const 2) +
    ite .lt (const 1) (v 2) (un .acos (const 1 / v 1) / un .sqrt (un .sq (v 1) - const 1))
      (ite .lt (v 2) (const 1) (un .acosh (const 1 / v 0) / un .sqrt (const 1 - un .sq (v 0))) (const 1))

/-- lenses/func/nfw.py:40-41 with `mass, c, critical_density, DELTA` at `i, j, k, l`. -/
noncomputable def nfwRsEx {n : ℕ} [NeZero n] (mass c rhoc Delta : Fin n) : Ex n :=
  un (.powc (1 / 3)) (const 3 * v mass / (const 4 * const π * v Delta * v rhoc)) / v c

/-- lenses/func/nfw.py:73-74. -/
noncomputable def nfwRhosEx {n : ℕ} [NeZero n] (c rhoc Delta : Fin n) : Ex n :=
  v Delta / const 3 * v rhoc * un .cube (v c) / (un .log (const 1 + v c) - v c / (const 1 + v c))

/-- lenses/func/nfw.py:254-264 with variables `x, y, x0, y0, s, mass, c, critical_density, d_l, DELTA, G_over_c2`; the
argument says where `x` or `y` is at the end. -/
noncomputable def nfwDefl (w : Fin 18) : Ex 11 := centred <|
  letE (nfwRsEx 8 9 10 12) <|                                   -- scale_radius; th is 1
  letE (v 12 * v 1 * const arcsecToRad) <|                      -- xi; scale_radius 1, th 2
  letE (v 0 / v 1) <|                                           -- r; xi 1, scale_radius 2, th 3
  letE (const 16 * const π * v 16 * nfwRhosEx 12 13 15 * un .cube (v 2) * nfwHEx * const radToArcsec / v 1) <|
  v 0 * v w / v 4

/-- lenses/func/nfw.py:262. -/
noncomputable def nfwX : Ex 11 := nfwDefl 6

/-- lenses/func/nfw.py:263. -/
noncomputable def nfwY : Ex 11 := nfwDefl 5

/-- lenses/func/nfw.py:113-115 where `scale_radius, xi, r` have been computed; `critical_surface_density` is the last
variable. -/
noncomputable def nfwKsEx : Ex 17 := nfwRsEx 11 12 13 15 * nfwRhosEx 12 13 15 / v 16

/-- lenses/func/nfw.py:319-327 with variables `x, y, x0, y0, s, mass, c, critical_density, d_l, DELTA,
critical_surface_density`. -/
noncomputable def nfwConv : Ex 11 := centred <|
  letE (nfwRsEx 8 9 10 12) <| letE (v 12 * v 1 * const arcsecToRad) <| letE (v 0 / v 1) <|
  const 2 * nfwKsEx * nfwFEx / (un .sq (v 0) - const 1)

/-- lenses/func/nfw.py:382-390, same variables. -/
noncomputable def nfwPot : Ex 11 := centred <|
  letE (nfwRsEx 8 9 10 12) <| letE (v 12 * v 1 * const arcsecToRad) <| letE (v 0 / v 1) <|
  const 2 * nfwKsEx * nfwGEx * un .sq (v 2) / (un .sq (v 14) * const (arcsecToRad ^ 2))

/-! ### Pseudo-Jaffe: variables `x, y, x0, y0, s, mass, Rc, Rs, d_l, critical_surface_density` -/

/-- lenses/func/pseudo_jaffe.py:144-150 with 6-47. -/
noncomputable def pjDefl (w : Fin 15) : Ex 10 := centred <|
  letE (v 0 / v 9 / (const 1 + un .sqrt (const 1 + un .sq (v 0 / v 9)))
    - v 0 / (v 10 * (const 1 + un .sqrt (const 1 + un .sq (v 0 / v 10))))) <|
  letE (const 2 * (v 9 / (const 2 * const π * v 13 * v 10 * v 11 * un .sq (v 12 * const arcsecToRad)))
    * v 10 * v 11 / (v 11 - v 10) * v 0) <|
  v 0 * v w / v 2

/-- lenses/func/pseudo_jaffe.py:148. -/
noncomputable def pjX : Ex 10 := pjDefl 4

/-- lenses/func/pseudo_jaffe.py:149. -/
noncomputable def pjY : Ex 10 := pjDefl 3

/-! ### Singular isothermal ellipsoid: variables `x, y, x0, y0, s, q, phi, Rein` -/

/-- lenses/func/sie.py:67-79, followed by `body`, which sees `ay` and `ax` as variables 0 and 1 and `phi` as 19. -/
noncomputable def sieBody (body : Ex 21) : Ex 8 :=
  letE (ite .eq (v 5) (const 1) (v 5 - const 1e-6) (v 5)) <|    -- q
  letE (v 1 - v 3) <| letE (v 3 - v 5) <|                       -- utils.py:108-109
  letE (un .cos (v 9)) <| letE (un .sin (v 10)) <|              -- utils.py:113-114
  letE (v 3 * v 1 + v 2 * v 0) <| letE (v 3 * v 2 - v 4 * v 1) <|  -- utils.py:116
  letE (un .sq (v 6)) <|                                        -- q2_
  letE (un .sqrt (const 1 - v 0)) <|                            -- f
  letE (v 16 * un .sqrt (v 8) / v 0) <|                         -- rein_q_sqrt_f_
  letE (un .sqrt (v 2 * (un .sq (v 4) + un .sq (v 14)) + un .sq (v 3))) <|  -- psi
  letE (v 1 * un .atan (v 2 * v 5 / (v 0 + v 15))) <|           -- ax
  letE (v 2 * un .atanh (v 3 * v 5 / (v 1 + v 4 * v 16))) <|    -- ay
  body

/-- lenses/func/sie.py:81 with utils.py:121-144, first component. -/
noncomputable def sieX : Ex 8 := sieBody (v 1 * un .cos (v 19) - v 0 * un .sin (v 19))

/-- Second component. -/
noncomputable def sieY : Ex 8 := sieBody (v 1 * un .sin (v 19) + v 0 * un .cos (v 19))

/-! ### Truncated NFW: variables `x, y, x0, y0, s, Rs, tau, critical_density, M0, d_l` -/

/-- lenses/func/tnfw.py:49-65, of variable 0. -/
noncomputable def tnfwFEx {n : ℕ} : Ex (n + 1) :=
  letE (clampMin (v 0) (1 + 1e-3)) <| letE (clampMax (v 1) (1 - 1e-3)) <|
  ite .lt (v 2) (const (1 - 1e-2)) (un .acosh (const 1 / v 0) / un .sqrt (const 1 - un .sq (v 0)))
    (ite .lt (const (1 + 1e-2)) (v 2) (un .acos (const 1 / v 1) / un .sqrt (un .sq (v 1) - const 1))
      (const 1 - const 2 * (v 2 - const 1) / const 3 + const 7 * un .sq (v 2 - const 1) / const 15))

/-- lenses/func/tnfw.py:311-319 followed by the rest; `S` and `t2` do not depend on each other. -/
noncomputable def tnfwHead (tail : Ex 18) : Ex 10 := centred <|
  letE (v 0 / v 8) <|                                           -- g
  letE tnfwFEx <|                                               -- F
  letE (un .log (v 1 / (v 11 + un .sqrt (un .sq (v 11) + un .sq (v 1))))) <|  -- L
  letE (v 14 / (const 2 * const π * un .sq (v 11 * v 15 * const arcsecToRad))) <|  -- S
  letE (un .sq (v 13)) <|                                       -- t2
  tail

/-- lenses/func/tnfw.py:320-325 with the expression for `a2`. -/
noncomputable def tnfwTail (a2 : Ex 18) : Ex 18 :=
  v 0 / un .sq (v 0 + const 1) *
    (a2 + const 2 * v 3 + -const π / un .sqrt (v 0 + un .sq (v 4))
      + (v 0 - const 1) * v 2 / (v 14 * un .sqrt (v 0 + un .sq (v 4))))
    * v 1 / v 15

/-- lenses/func/tnfw.py:321. -/
noncomputable def tnfwA2 : Ex 18 :=
  ite .eq (v 4) (const 1) ((v 0 + const 1) / const 3) ((v 0 + const 1) * (const 1 - v 3) / (un .sq (v 4) - const 1))

/-- lenses/func/tnfw.py:247-325. -/
noncomputable def tnfwConv : Ex 10 := tnfwHead (tnfwTail tnfwA2)

/-! ### Sources -/

/-- light/func/sersic.py:61-66 with variables `x, y, x0, y0, s, q, phi, n, Re, Ie, k`. -/
noncomputable def sersicEx : Ex 11 :=
  letE (v 0 - v 2) <| letE (v 2 - v 4) <|
  letE (un .cos (v 8)) <| letE (un .sin (v 9)) <|
  letE (v 3 * v 1 + v 2 * v 0) <| letE (v 3 * v 2 - v 4 * v 1) <|
  letE (v 0 / v 11) <|                                          -- ey, utils.py:165
  letE (un .sqrt (un .sq (v 2) + un .sq (v 0)) + v 11) <|       -- e
  v 17 * un .exp (-v 18 * (pow (v 0 / v 16) (const 1 / v 15) - const 1))

/-- light/func/star_source.py:6-15 with variables `x, y, x0, y0, theta_s, Ie, gamma`. -/
noncomputable def starEx : Ex 7 :=
  letE (v 0 - v 2) <| letE (v 2 - v 4) <|
  letE (un (.powc (1 / 2)) (un .sq (v 1) + un .sq (v 0))) <|    -- impact_parameter
  letE (un (.powc (1 / 2)) (const 1 - un .sq (v 0))) <|         -- mu
  ite .le (v 1) (v 8) (v 9 * (const 1 - v 10 * (const 1 - v 0))) (const 0)

/-- One pixel of the star's image, at the position `x, y`: variables `x0, y0, theta_s, Ie, gamma`. -/
noncomputable def starPixel (x y : ℝ) : Ex 5 := letE (const y) (letE (const x) starEx)

/-- The sum of squared residuals of the star's image: pixels with their positions and data. -/
noncomputable def starLoss : List (ℝ × ℝ × ℝ) → Ex 5
  | [] => const 0
  | (x, y, d) :: l => un .sq (starPixel x y - const d) + starLoss l

end Caustics

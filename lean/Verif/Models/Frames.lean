import Verif.Models.Rsw

/-!
# Transformations between reference frames

Model of `src/model/frame_transformations.cpp`. The quantities taken from the EOP data and from the precession/nutation theory are arbitrary
expressions: `xp`, `yp` are the coordinates of the pole, `dx`, `dy` the corrections, `xpn`, `ypn`, `spn` the result of `iau2006()`. The numbers `csp`,
`ssp` are the values of `std::cos()` and `std::sin()`.
-/

namespace Heyoka.Models

open Heyoka.Sym

section
variable {K : Type} [Field K] [LinearOrder K] [FloorRing K] [Fold K]

/-- `fk5j2000_icrs_rot` (`src/model/frame_transformations.cpp` 40-42). -/
def fk5Mat : Fin 3 → Fin 3 → K
  | 0, 0 => 9.9999999999999278e-01
  | 0, 1 => 1.1102233723050031e-07
  | 0, 2 => 4.4118034269763241e-08
  | 1, 0 => -1.1102233297408340e-07
  | 1, 1 => 9.9999999999998912e-01
  | 1, 2 => -9.6477927438885170e-08
  | 2, 0 => -4.4118044980967761e-08
  | 2, 1 => 9.6477922540797404e-08
  | 2, 2 => 9.9999999999999434e-01

/-- `rot_fk5j2000_icrs()` (`src/model/frame_transformations.cpp` 48-58, 74-77). -/
def fk5Icrs (xyz : Fin 3 → Expr K) : Fin 3 → Expr K := rot (fun i j => .dbl (fk5Mat i j)) xyz

/-- `rot_icrs_fk5j2000()` (`src/model/frame_transformations.cpp` 48-58, 80-83): the other layout transposes the matrix. -/
def icrsFk5 (xyz : Fin 3 → Expr K) : Fin 3 → Expr K := rot (fun i j => .dbl (fk5Mat j i)) xyz

/-- `cos()` of an expression. -/
def cosE (e : Expr K) : Expr K := unaryE (.cos false) e

/-- `sin()` of an expression. -/
def sinE (e : Expr K) : Expr K := unaryE (.sin false) e

/-- The matrix built by `build_rot_itrs_tirs()` and by `build_rot_itrs_teme()` (`src/model/frame_transformations.cpp` 92-125, 314-347). `c` and `s`
are the cosine and the sine of the last angle (numbers in the first case, expressions in the second). -/
def pmMat (xp yp c s : Expr K) : Fin 3 → Fin 3 → Expr K
  | 0, 0 => mulE (cosE xp) c
  | 0, 1 => addE (mulE (negE (cosE yp)) s) (mulE (mulE (sinE yp) (sinE xp)) c)
  | 0, 2 => subE (mulE (negE (sinE yp)) s) (mulE (mulE (cosE yp) (sinE xp)) c)
  | 1, 0 => mulE (cosE xp) s
  | 1, 1 => addE (mulE (cosE yp) c) (mulE (mulE (sinE yp) (sinE xp)) s)
  | 1, 2 => subE (mulE (sinE yp) c) (mulE (mulE (cosE yp) (sinE xp)) s)
  | 2, 0 => sinE xp
  | 2, 1 => mulE (negE (sinE yp)) (cosE xp)
  | 2, 2 => mulE (cosE yp) (cosE xp)

/-- `rot_itrs_tirs()` (`src/model/frame_transformations.cpp` 127-136). -/
def itrsTirs (xp yp : Expr K) (csp ssp : K) (xyz : Fin 3 → Expr K) : Fin 3 → Expr K := rot (pmMat xp yp (.dbl csp) (.dbl ssp)) xyz

/-- `rot_tirs_itrs()` (`src/model/frame_transformations.cpp` 280-289). -/
def tirsItrs (xp yp : Expr K) (csp ssp : K) (xyz : Fin 3 → Expr K) : Fin 3 → Expr K := rotT (pmMat xp yp (.dbl csp) (.dbl ssp)) xyz

/-- The form `{c * x + s * y, c * y - s * x, z}` (`src/model/frame_transformations.cpp` 148, 205-207). -/
def rot3E (c s : Expr K) (xyz : Fin 3 → Expr K) : Fin 3 → Expr K
  | 0 => addE (mulE c (xyz 0)) (mulE s (xyz 1))
  | 1 => subE (mulE c (xyz 1)) (mulE s (xyz 0))
  | 2 => xyz 2

/-- The form `{c * x - s * y, s * x + c * y, z}` (`src/model/frame_transformations.cpp` 264, 277). -/
def rot3TE (c s : Expr K) (xyz : Fin 3 → Expr K) : Fin 3 → Expr K
  | 0 => subE (mulE c (xyz 0)) (mulE s (xyz 1))
  | 1 => addE (mulE s (xyz 0)) (mulE c (xyz 1))
  | 2 => xyz 2

/-- `rot_tirs_cirs()` (`src/model/frame_transformations.cpp` 138-149). -/
def tirsCirs (era : Expr K) (xyz : Fin 3 → Expr K) : Fin 3 → Expr K := rot3E (cosE (negE era)) (sinE (negE era)) xyz

/-- `rot_cirs_tirs()` (`src/model/frame_transformations.cpp` 267-278). -/
def cirsTirs (era : Expr K) (xyz : Fin 3 → Expr K) : Fin 3 → Expr K := rot3TE (cosE (negE era)) (sinE (negE era)) xyz

/-- The matrix built by `build_cirs_icrs_pn()` (`src/model/frame_transformations.cpp` 169-187) from `X` and `Y`. -/
def pnMat (X Y : Expr K) : Fin 3 → Fin 3 → Expr K :=
  let X2 := sq X
  let Y2 := sq Y
  let X2Y2 := addE X2 Y2
  let XY := mulE X Y
  let a := addE (.dbl (1 / 2)) (mulE (.dbl (1 / 8)) X2Y2)
  fun
  | 0, 0 => subE (.dbl 1) (mulE a X2)
  | 0, 1 => mulE (negE a) XY
  | 0, 2 => X
  | 1, 0 => mulE (negE a) XY
  | 1, 1 => subE (.dbl 1) (mulE a Y2)
  | 1, 2 => Y
  | 2, 0 => negE X
  | 2, 1 => negE Y
  | 2, 2 => subE (.dbl 1) (mulE a X2Y2)

/-- The corrected `s` (`src/model/frame_transformations.cpp` 166). -/
def pnS (xpn ypn spn dx dy : Expr K) : Expr K := subE spn (mulE (.dbl (1 / 2)) (sumE [mulE xpn dy, mulE ypn dx, mulE dx dy]))

/-- `rot_cirs_icrs()` (`src/model/frame_transformations.cpp` 161-162, 193-212). -/
def cirsIcrs (xpn ypn spn dx dy : Expr K) (xyz : Fin 3 → Expr K) : Fin 3 → Expr K :=
  rot (pnMat (addE xpn dx) (addE ypn dy)) (rot3E (cosE (pnS xpn ypn spn dx dy)) (sinE (pnS xpn ypn spn dx dy)) xyz)

/-- `rot_icrs_cirs()` (`src/model/frame_transformations.cpp` 244-265). -/
def icrsCirs (xpn ypn spn dx dy : Expr K) (xyz : Fin 3 → Expr K) : Fin 3 → Expr K :=
  rot3TE (cosE (pnS xpn ypn spn dx dy)) (sinE (pnS xpn ypn spn dx dy)) (rotT (pnMat (addE xpn dx) (addE ypn dy)) xyz)

/-- The quantities obtained from the EOP data and from the precession/nutation theory. -/
structure Eop (K : Type) where
  (xp yp era xpn ypn spn dx dy g82 : Expr K)

/-- `rot_itrs_icrs_impl()` (`src/model/frame_transformations.cpp` 228-239). -/
def itrsIcrs (e : Eop K) (csp ssp : K) (xyz : Fin 3 → Expr K) : Fin 3 → Expr K :=
  cirsIcrs e.xpn e.ypn e.spn e.dx e.dy (tirsCirs e.era (itrsTirs e.xp e.yp csp ssp xyz))

/-- `rot_icrs_itrs_impl()` (`src/model/frame_transformations.cpp` 294-305). -/
def icrsItrs (e : Eop K) (csp ssp : K) (xyz : Fin 3 → Expr K) : Fin 3 → Expr K :=
  tirsItrs e.xp e.yp csp ssp (cirsTirs e.era (icrsCirs e.xpn e.ypn e.spn e.dx e.dy xyz))

/-- `rot_itrs_teme_impl()` (`src/model/frame_transformations.cpp` 351-360). -/
def itrsTeme (e : Eop K) (xyz : Fin 3 → Expr K) : Fin 3 → Expr K := rot (pmMat e.xp e.yp (cosE e.g82) (sinE e.g82)) xyz

/-- `rot_teme_itrs_impl()` (`src/model/frame_transformations.cpp` 362-371). -/
def temeItrs (e : Eop K) (xyz : Fin 3 → Expr K) : Fin 3 → Expr K := rotT (pmMat e.xp e.yp (cosE e.g82) (sinE e.g82)) xyz

end

end Heyoka.Models

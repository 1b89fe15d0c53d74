import Verif.Theory.Model
import Verif.Models.Lagrange

/-!
# Cartesian coordinates from VSOP2013 and ELP2000

Sources: `src/model/vsop2013.cpp`, `src/model/elp2000.cpp`.
-/

namespace Heyoka.Theory

open Heyoka.Sym Heyoka.Models

/-- A vector of three expressions. -/
def vec3 {α : Type} (x y z : α) : Fin 3 → α := ![x, y, z]

/-! ### VSOP2013 -/

/-- `vsop2013_gm_pl` (`src/model/vsop2013.cpp` 325-327). -/
noncomputable def gmPlanet : List ℝ :=
  [4.9125474514508118699e-11, 7.2434524861627027000e-10, 8.9970116036316091182e-10, 9.5495351057792580598e-11, 2.8253458420837780000e-07,
   8.4597151856806587398e-08, 1.2920249167819693900e-08, 1.5243589007842762800e-08, 2.1886997654259696800e-12]

/-- `vsop2013_gm_sun` (`src/model/vsop2013.cpp` 330). -/
noncomputable def gmSun : ℝ := 2.9591220836841438269e-04

/-- The change from the equinoctial frame to the reference frame (`src/model/vsop2013.cpp` 382-393, 404-409), for the position and, with the same
factors, for the velocity. -/
noncomputable def eqFrame (p q X1 Y1 : Expr ℝ) : Fin 3 → Expr ℝ :=
  let one : Expr ℝ := .dbl 1
  let p2 := sq p
  let q2 := sq q
  let p2mq2 := subE p2 q2
  let p2pq2 := addE p2 q2
  let twoP := addE p p
  let twoPQ := mulE twoP q
  let twoQ := addE q q
  let x := addE (mulE (subE one p2mq2) X1) (mulE twoPQ Y1)
  let y := addE (mulE twoPQ X1) (mulE (addE one p2mq2) Y1)
  let z := subE (mulE twoQ Y1) (mulE twoP X1)
  let quot := addE one p2pq2
  vec3 (divE x quot) (divE y quot) (divE z quot)

/-- The conversion from equinoctial elements to position and velocity (`src/model/vsop2013.cpp` 361-409). -/
noncomputable def equinoctial (mu : ℝ) (a lam k h q_ p_ : Expr ℝ) : (Fin 3 → Expr ℝ) × (Fin 3 → Expr ℝ) :=
  let one : Expr ℝ := .dbl 1
  let si22 := addE (sq q_) (sq p_)
  let ci2 := sqrtE (subE one si22)
  let q := divE q_ ci2
  let p := divE p_ ci2
  let e2 := addE (sq h) (sq k)
  let eQuot := addE one (sqrtE (subE one e2))
  let F := kepFE h k lam
  let cF := unaryE (.cos false) F
  let sF := unaryE (.sin false) F
  let lamF := subE (mulE h cF) (mulE k sF)
  let lamFe := divE lamF eQuot
  let X1 := mulE a (subE (subE cF k) (mulE h lamFe))
  let Y1 := mulE a (addE (subE sF h) (mulE k lamFe))
  let n := sqrtE (divE (.dbl mu) (powE a (.dbl 3)))
  let Fp := divE n (subE (subE one (mulE h sF)) (mulE k cF))
  let nFp := subE n Fp
  let nFpe := divE nFp eQuot
  let VX1 := mulE a (subE (mulE (negE sF) Fp) (mulE h nFpe))
  let VY1 := mulE a (addE (mulE cF Fp) (mulE k nFpe))
  (eqFrame p q X1 Y1, eqFrame p q VX1 VY1)

/-- `vsop2013_cartesian_impl()` (`src/model/vsop2013.cpp` 336-410). The six series are built in parallel; here one after the other, each from the same
arguments. An access of `vsop2013_gm_pl` out of its bounds is undefined behaviour. -/
noncomputable def vsopCartesian (data : Nat → Nat → List (List VsopRow)) (pl : Nat) (t : Expr ℝ) (thresh : Option ℝ) :
    Res ((Fin 3 → Expr ℝ) × (Fin 3 → Expr ℝ)) :=
  (vsopElliptic data pl 1 t thresh).bind fun a =>
  (vsopElliptic data pl 2 t thresh).bind fun lam =>
  (vsopElliptic data pl 3 t thresh).bind fun k =>
  (vsopElliptic data pl 4 t thresh).bind fun h =>
  (vsopElliptic data pl 5 t thresh).bind fun q =>
  (vsopElliptic data pl 6 t thresh).bind fun p =>
    match gmPlanet[pl - 1]? with
    | none => .ub
    | some gm => .ok (equinoctial (gmSun + gm) a lam k h q p)

/-- `eps` (`src/model/vsop2013.cpp` 422). -/
noncomputable def icrfEps : ℝ := 0.4090926265865962

/-- `phi` (`src/model/vsop2013.cpp` 423). -/
noncomputable def icrfPhi : ℝ := -2.5152133775962285e-07

/-- The rotation to the ICRF (`src/model/vsop2013.cpp` 426-438), for the position and, in the same way, for the velocity. The numerical factors are
exact. -/
noncomputable def icrfRot (e : Fin 3 → Expr ℝ) : Fin 3 → Expr ℝ :=
  let c := Real.cos icrfPhi
  let s := Real.sin icrfPhi
  let ce := Real.cos icrfEps
  let se := Real.sin icrfEps
  vec3 (addE (subE (mulE (.dbl c) (e 0)) (mulE (.dbl (s * ce)) (e 1))) (mulE (.dbl (s * se)) (e 2)))
    (subE (addE (mulE (.dbl s) (e 0)) (mulE (.dbl (c * ce)) (e 1))) (mulE (.dbl (c * se)) (e 2)))
    (addE (mulE (.dbl se) (e 1)) (mulE (.dbl ce) (e 2)))

/-- `vsop2013_cartesian_icrf_impl()` (`src/model/vsop2013.cpp` 414-439). -/
noncomputable def vsopIcrf (data : Nat → Nat → List (List VsopRow)) (pl : Nat) (t : Expr ℝ) (thresh : Option ℝ) :
    Res ((Fin 3 → Expr ℝ) × (Fin 3 → Expr ℝ)) :=
  (vsopCartesian data pl t thresh).bind fun c => .ok (icrfRot c.1, icrfRot c.2)

/-! ### ELP2000 -/

/-- `elp2000_cartesian_impl()` (`src/model/elp2000.cpp` 1283-1300). -/
noncomputable def elpCartesian (T : ElpTables) (tm : Expr ℝ) (thresh : Option ℝ) : Res (Fin 3 → Expr ℝ) :=
  (elpSpherical T tm thresh).bind fun s =>
    let r := s.1
    let cU := unaryE (.cos false) s.2.1
    let sU := unaryE (.sin false) s.2.1
    let cV := unaryE (.cos false) s.2.2
    let sV := unaryE (.sin false) s.2.2
    let rcU := mulE r cU
    .ok (vec3 (mulE rcU cV) (mulE rcU sV) (mulE r sU))

/-- `LP` (`src/model/elp2000.cpp` 1306). -/
noncomputable def laskarP : List ℝ := [0, 0.10180391e-4, 0.47020439e-6, -0.5417367e-9, -0.2507948e-11, 0.463486e-14]

/-- `LQ` (`src/model/elp2000.cpp` 1307). -/
noncomputable def laskarQ : List ℝ := [0, -0.113469002e-3, 0.12372674e-6, 0.12654170e-8, -0.1371808e-11, -0.320334e-14]

/-- The rotation of `elp2000_cartesian_e2000_impl()` (`src/model/elp2000.cpp` 1324-1333). -/
noncomputable def elpE2000Rot (P Q : Expr ℝ) (e : Fin 3 → Expr ℝ) : Fin 3 → Expr ℝ :=
  let one : Expr ℝ := .dbl 1
  let two : Expr ℝ := .dbl 2
  let P2 := sq P
  let Q2 := sq Q
  let PQ := mulE P Q
  let w := sqrtE (subE (subE one P2) Q2)
  vec3 (sumE [mulE (subE one (mulE two P2)) (e 0), mulE (mulE two PQ) (e 1), mulE (mulE (mulE two P) w) (e 2)])
    (sumE [mulE (mulE two PQ) (e 0), mulE (subE one (mulE two Q2)) (e 1), mulE (mulE (mulE (.dbl (-2)) Q) w) (e 2)])
    (sumE [mulE (mulE (mulE (.dbl (-2)) P) w) (e 0), mulE (mulE (mulE two Q) w) (e 1),
      mulE (subE (subE one (mulE two P2)) (mulE two Q2)) (e 2)])

/-- `elp2000_cartesian_e2000_impl()` (`src/model/elp2000.cpp` 1312-1336). -/
noncomputable def elpE2000 (T : ElpTables) (tm : Expr ℝ) (thresh : Option ℝ) : Res (Fin 3 → Expr ℝ) :=
  (elpCartesian T tm thresh).bind fun e => .ok (elpE2000Rot (hornerN laskarP tm) (hornerN laskarQ tm) e)

/-- The rotation of `elp2000_cartesian_fk5_impl()` (`src/model/elp2000.cpp` 1347-1349). -/
noncomputable def elpFk5Rot (e : Fin 3 → Expr ℝ) : Fin 3 → Expr ℝ :=
  vec3 (sumE [e 0, mulE (.dbl 0.000000437913) (e 1), mulE (.dbl (-0.000000189859)) (e 2)])
    (sumE [mulE (.dbl (-0.000000477299)) (e 0), mulE (.dbl 0.917482137607) (e 1), mulE (.dbl (-0.397776981701)) (e 2)])
    (sumE [mulE (.dbl 0.397776981701) (e 1), mulE (.dbl 0.917482137607) (e 2)])

/-- `elp2000_cartesian_fk5_impl()` (`src/model/elp2000.cpp` 1339-1352). -/
noncomputable def elpFk5 (T : ElpTables) (tm : Expr ℝ) (thresh : Option ℝ) : Res (Fin 3 → Expr ℝ) :=
  (elpE2000 T tm thresh).bind fun e => .ok (elpFk5Rot e)

end Heyoka.Theory

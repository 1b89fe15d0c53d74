import Verif.Models.Basic
import Verif.Util.Res

/-!
# Pendulum, circular restricted three-body problem, fixed centres, rotating frames, mascons

`src/model/pendulum.cpp`, `src/model/cr3bp.cpp`, `src/model/fixed_centres.cpp`, `src/model/rotating.cpp`, `src/model/mascon.cpp`.
The three axes are indexed by `Fin 3`.
-/

set_option linter.unusedSectionVars false

namespace Heyoka.Models

open Heyoka.Sym

variable {K : Type} [Field K] [LinearOrder K] [FloorRing K] [Fold K]

/-! ### Pendulum -/

/-- `pendulum_impl()` (`src/model/pendulum.cpp` 24-29). -/
def pendulum (g l : Expr K) : List (Expr K × Expr K) :=
  [(.var "x", .var "v"), (.var "v", mulE (divE (negE g) l) (unaryE (.sin false) (.var "x")))]

/-- `pendulum_energy_impl()` (`src/model/pendulum.cpp` 31-36). -/
def pendulumEnergy (g l : Expr K) : Expr K :=
  addE (mulE (mulE (.dbl (1 / 2)) (sq l)) (sq (.var "v"))) (mulE (mulE g l) (subE (.dbl 1) (unaryE (.cos false) (.var "x"))))

/-! ### Circular restricted three-body problem -/

/-- `cr3bp_check_mu()` (`src/model/cr3bp.cpp` 32-47); infinities and not-a-numbers have no value in `K`. -/
def cr3bpCheck : Expr K → Res Unit
  | .num n =>
    match n.toK? with
    | none => .throw
    | some m => if m ≤ 0 ∨ 1 / 2 ≤ m then .throw else .ok ()
  | _ => .ok ()

/-- `x_m_mu` (`src/model/cr3bp.cpp` 59, 93). -/
def crX1 (mu : Expr K) : Expr K := subE (.var "x") mu
/-- `x_m_mu_p1` (`src/model/cr3bp.cpp` 61, 95). -/
def crX2 (mu : Expr K) : Expr K := addE (crX1 mu) (.dbl 1)
/-- `y_p_z_2` (`src/model/cr3bp.cpp` 63, 97). -/
def crYZ : Expr K := addE (sq (.var "y")) (sq (.var "z"))
/-- `rp1_2` (`src/model/cr3bp.cpp` 65, 99). -/
def crR1 (mu : Expr K) : Expr K := addE (sq (crX1 mu)) crYZ
/-- `rp2_2` (`src/model/cr3bp.cpp` 67, 101). -/
def crR2 (mu : Expr K) : Expr K := addE (sq (crX2 mu)) crYZ
/-- `g1` (`src/model/cr3bp.cpp` 69). -/
def crG1 (mu : Expr K) : Expr K := mulE (subE (.dbl 1) mu) (powE (crR1 mu) (.dbl (-3 / 2)))
/-- `g2` (`src/model/cr3bp.cpp` 71). -/
def crG2 (mu : Expr K) : Expr K := mulE mu (powE (crR2 mu) (.dbl (-3 / 2)))

/-- `cr3bp_impl()` (`src/model/cr3bp.cpp` 51-83). -/
def cr3bp (mu : Expr K) : Res (List (Expr K × Expr K)) :=
  (cr3bpCheck mu).bind fun _ => .ok
    [(.var "x", addE (.var "px") (.var "y")), (.var "y", subE (.var "py") (.var "x")), (.var "z", .var "pz"),
      (.var "px", subE (subE (.var "py") (mulE (crG1 mu) (crX1 mu))) (mulE (crG2 mu) (crX2 mu))),
      (.var "py", subE (negE (.var "px")) (mulE (addE (crG1 mu) (crG2 mu)) (.var "y"))),
      (.var "pz", mulE (negE (addE (crG1 mu) (crG2 mu))) (.var "z"))]

/-- `cr3bp_jacobi_impl()` (`src/model/cr3bp.cpp` 85-110). -/
def cr3bpJacobi (mu : Expr K) : Res (Expr K) :=
  (cr3bpCheck mu).bind fun _ => .ok <|
    subE (subE (subE (addE (mulE (.dbl (1 / 2)) (addE (addE (sq (.var "px")) (sq (.var "py"))) (sq (.var "pz"))))
      (mulE (.var "y") (.var "px"))) (mulE (.var "x") (.var "py"))) (divE (subE (.dbl 1) mu) (sqrtE (crR1 mu))))
      (divE mu (sqrtE (crR2 mu)))

/-! ### Fixed centres -/

/-- The names of the coordinates (`src/model/fixed_centres.cpp` 62, `src/model/rotating.cpp` 50). -/
def crd : Fin 3 → String
  | 0 => "x" | 1 => "y" | 2 => "z"

/-- The names of the velocities (`src/model/fixed_centres.cpp` 62, `src/model/rotating.cpp` 50). -/
def vel : Fin 3 → String
  | 0 => "vx" | 1 => "vy" | 2 => "vz"

/-- The equations of motion for given accelerations (`src/model/fixed_centres.cpp` 84-94, `src/model/rotating.cpp` 88-98). -/
def motion6 (acc : Fin 3 → Expr K) : List (Expr K × Expr K) :=
  [(.var (crd 0), .var (vel 0)), (.var (crd 1), .var (vel 1)), (.var (crd 2), .var (vel 2)),
    (.var (vel 0), acc 0), (.var (vel 1), acc 1), (.var (vel 2), acc 2)]

/-- `fixed_centres_check_masses_pos()` (`src/model/fixed_centres.cpp` 31-49). -/
def fcCheck (ms ps : List (Expr K)) : Res Unit :=
  if ps.length % 3 ≠ 0 then .throw
  else if ps.length / 3 ≠ ms.length then .throw
  else .ok ()

/-- `diff_x`, `diff_y`, `diff_z` (`src/model/fixed_centres.cpp` 71-73, 114-116); the indices are in bounds after the checks. -/
def fcDiff (ps : List (Expr K)) (i : Nat) (a : Fin 3) : Expr K := subE (ps.getD (3 * i + a) (.dbl 0)) (.var (crd a))

/-- An acceleration (`src/model/fixed_centres.cpp` 64-81, 90-92; the loop is run for one axis at a time). -/
def fcAcc (G : Expr K) (ms ps : List (Expr K)) (a : Fin 3) : Expr K :=
  mulE G (sumE ((List.range ms.length).map fun i =>
    mulE (fcDiff ps i a) (mulE (ms.getD i (.dbl 0)) (powE (norm2 (fcDiff ps i)) (.dbl (-3 / 2))))))

/-- `fixed_centres_impl()` (`src/model/fixed_centres.cpp` 52-95). -/
def fixedCentres (G : Expr K) (ms ps : List (Expr K)) : Res (List (Expr K × Expr K)) :=
  (fcCheck ms ps).bind fun _ => .ok (motion6 (fcAcc G ms ps))

/-- `fixed_centres_potential_impl()` (`src/model/fixed_centres.cpp` 97-124). -/
def fixedCentresPotential (G : Expr K) (ms ps : List (Expr K)) : Res (Expr K) :=
  (fcCheck ms ps).bind fun _ => .ok <|
    mulE (negE G) (sumE ((List.range ms.length).map fun i => divE (ms.getD i (.dbl 0)) (sqrtE (norm2 (fcDiff ps i)))))

/-- The kinetic energy (`src/model/fixed_centres.cpp` 133, `src/model/rotating.cpp` 131). -/
def kinetic : Expr K := mulE (.dbl (1 / 2)) (norm2 fun a => .var (vel a))

/-- `fixed_centres_energy_impl()` (`src/model/fixed_centres.cpp` 126-136). -/
def fixedCentresEnergy (G : Expr K) (ms ps : List (Expr K)) : Res (Expr K) :=
  (fixedCentresPotential G ms ps).bind fun p => .ok (addE kinetic p)

/-! ### Rotating frames -/

/-- The terms of the accelerations (`src/model/rotating.cpp` 55-85; `-2_dbl` is folded by the constructor). -/
def rotTerms (p q r : Expr K) : Fin 3 → List (Expr K)
  | 0 => [mulE q (mulE q (.var "x")), mulE r (mulE r (.var "x")), negE (mulE p (mulE q (.var "y"))), negE (mulE p (mulE r (.var "z"))),
      mulE (.dbl (-2)) (subE (mulE q (.var "vz")) (mulE r (.var "vy")))]
  | 1 => [mulE (sq p) (.var "y"), mulE (sq r) (.var "y"), negE (mulE p (mulE q (.var "x"))), negE (mulE q (mulE r (.var "z"))),
      mulE (.dbl (-2)) (subE (mulE r (.var "vx")) (mulE p (.var "vz")))]
  | 2 => [mulE (sq p) (.var "z"), mulE (sq q) (.var "z"), negE (mulE p (mulE r (.var "x"))), negE (mulE r (mulE q (.var "y"))),
      mulE (.dbl (-2)) (subE (mulE p (.var "vy")) (mulE q (.var "vx")))]

/-- `rotating_impl()` (`src/model/rotating.cpp` 30-37, 44-86): the accelerations; the angular velocity is empty or has three components. -/
def rotAcc : List (Expr K) → Res (Fin 3 → Expr K)
  | [] => .ok fun _ => sumE []
  | [p, q, r] => .ok fun a => sumE (rotTerms p q r a)
  | _ => .throw

/-- `rotating_impl()` (`src/model/rotating.cpp` 44-99). -/
def rotating (om : List (Expr K)) : Res (List (Expr K × Expr K)) := (rotAcc om).bind fun acc => .ok (motion6 acc)

/-- `rotating_potential_impl()` (`src/model/rotating.cpp` 101-124). -/
def rotatingPotential : List (Expr K) → Res (Expr K)
  | [] => .ok (.dbl 0)
  | [p, q, r] => .ok <| mulE (.dbl (1 / 2)) (subE (sq (sumE [mulE p (.var "x"), mulE q (.var "y"), mulE r (.var "z")]))
      (mulE (sumE [sq p, sq q, sq r]) (norm2 fun a => .var (crd a))))
  | _ => .throw

/-- `rotating_energy_impl()` (`src/model/rotating.cpp` 126-132). -/
def rotatingEnergy (om : List (Expr K)) : Res (Expr K) := (rotatingPotential om).bind fun p => .ok (addE kinetic p)

/-! ### Mascons -/

/-- `mascon_impl()` (`src/model/mascon.cpp` 24-42): the accelerations are added. -/
def mascon (G : Expr K) (ms ps om : List (Expr K)) : Res (List (Expr K × Expr K)) :=
  (fixedCentres G ms ps).bind fun _ => (rotAcc om).bind fun acc => .ok (motion6 fun a => addE (fcAcc G ms ps a) (acc a))

/-- `mascon_energy_impl()` (`src/model/mascon.cpp` 44-52). -/
def masconEnergy (G : Expr K) (ms ps om : List (Expr K)) : Res (Expr K) :=
  (fixedCentresEnergy G ms ps).bind fun e => (rotatingPotential om).bind fun p => .ok (addE e p)

/-- `mascon_potential_impl()` (`src/model/mascon.cpp` 54-62). -/
def masconPotential (G : Expr K) (ms ps om : List (Expr K)) : Res (Expr K) :=
  (fixedCentresPotential G ms ps).bind fun e => (rotatingPotential om).bind fun p => .ok (addE e p)

end Heyoka.Models

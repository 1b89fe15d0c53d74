import Verif.Models.Simple

/-!
# N-body problem

`src/model/nbody.cpp`. The three axes are indexed by `Fin 3`: the statements which the code repeats for `x`, `y` and `z` are made
once. 32-bit counters are natural numbers.
-/

set_option linter.unusedSectionVars false

namespace Heyoka.Models

open Heyoka.Sym

variable {K : Type} [Field K] [LinearOrder K] [FloorRing K] [Fold K]

/-- The variables for the positions (`src/model/nbody.cpp` 63-65). -/
def xv (i : Nat) (a : Fin 3) : Expr K := .var (crd a ++ "_" ++ toString i)
/-- The variables for the velocities (`src/model/nbody.cpp` 67-69). -/
def vv (i : Nat) (a : Fin 3) : Expr K := .var (vel a ++ "_" ++ toString i)

/-- `nbody_checks()` (`src/model/nbody.cpp` 37-50). -/
def nbChecks (n : Nat) (ms : List (Expr K)) : Res Unit :=
  if n < 2 then .throw
  else if n < ms.length then .throw
  else .ok ()

/-- The accumulators of the accelerations (`src/model/nbody.cpp` 75-81). -/
abbrev Acc (K : Type) := Nat → Fin 3 → List (Expr K)

/-- `push_back()` on the accumulators of a body. -/
def Acc.push (acc : Acc K) (i : Nat) (f : Fin 3 → Expr K) : Acc K :=
  fun k a => if k = i then acc k a ++ [f a] else acc k a

/-- `diff_x`, `diff_y`, `diff_z` (`src/model/nbody.cpp` 98-100, 197-199). -/
def nbDiff (i j : Nat) (a : Fin 3) : Expr K := subE (xv j a) (xv i a)

/-- `r_m3` (`src/model/nbody.cpp` 103-104). -/
def nbRm3 (i j : Nat) : Expr K := powE (norm2 (nbDiff i j)) (.dbl (-3 / 2))

/-- Is the expression a number? (`std::holds_alternative<number>()`.) -/
def isNumber : Expr K → Bool
  | .num _ => true
  | _ => false

/-- Is the expression a number which is not zero? (`src/model/nbody.cpp` 114-115.) -/
def isNonzeroNumber : Expr K → Bool
  | .num n => !n.isZero
  | _ => false

/-- `opt_grouping` (`src/model/nbody.cpp` 113-116). -/
def optGrouping (G : Expr K) (ms : List (Expr K)) (j : Nat) : Bool :=
  decide (j < ms.length) && isNonzeroNumber (ms.getD j (.dbl 0)) && isNumber G

/-- The body of the inner loop (`src/model/nbody.cpp` 98-150). The masses are accessed at `i`, a massive body, and at `j`, after
checking that it is massive. -/
def nbPair (G : Expr K) (ms : List (Expr K)) (i j : Nat) (acc : Acc K) : Acc K :=
  let mi := ms.getD i (.dbl 0)
  let mj := ms.getD j (.dbl 0)
  if optGrouping G ms j then
    let facj := mulE (mulE G mj) (nbRm3 i j)
    let cij := divE (negE mi) mj
    let acc := acc.push i fun a => mulE (nbDiff i j a) facj
    acc.push j fun a => mulE ((acc i a).getLastD (.dbl 0)) cij
  else
    let grm3 := mulE G (nbRm3 i j)
    let faci := mulE (negE mi) grm3
    let acc := acc.push j fun a => mulE (nbDiff i j a) faci
    if j < ms.length then
      let facj := mulE mj grm3
      acc.push i fun a => mulE (nbDiff i j a) facj
    else acc

/-- The inner loop (`src/model/nbody.cpp` 97-151). -/
def nbInner (G : Expr K) (ms : List (Expr K)) (n i : Nat) (acc : Acc K) : Acc K :=
  (List.range' (i + 1) (n - (i + 1))).foldl (fun acc j => nbPair G ms i j acc) acc

/-- The equations for the position of a body (`src/model/nbody.cpp` 89-91, 164-166). -/
def nbVelEqs (i : Nat) : List (Expr K × Expr K) := [(xv i 0, vv i 0), (xv i 1, vv i 1), (xv i 2, vv i 2)]

/-- The equations for the velocity of a body (`src/model/nbody.cpp` 154-156, 168-170). -/
def nbAccEqs (i : Nat) (f : Fin 3 → Expr K) : List (Expr K × Expr K) := [(vv i 0, f 0), (vv i 1, f 1), (vv i 2, f 2)]

/-- The body of the loop over the massive bodies (`src/model/nbody.cpp` 87-157). -/
def nbMassive (G : Expr K) (ms : List (Expr K)) (n : Nat) (s : List (Expr K × Expr K) × Acc K) (i : Nat) :
    List (Expr K × Expr K) × Acc K :=
  let ret := s.1 ++ nbVelEqs i
  let acc := nbInner G ms n i s.2
  (ret ++ nbAccEqs i fun a => sumE (acc i a), acc)

/-- `nbody_impl()` (`src/model/nbody.cpp` 53-174). -/
def nbody (n : Nat) (G : Expr K) (ms : List (Expr K)) : Res (List (Expr K × Expr K)) :=
  (nbChecks n ms).bind fun _ =>
    let s := (List.range ms.length).foldl (nbMassive G ms n) ([], fun _ _ => [])
    .ok ((List.range' ms.length (n - ms.length)).foldl
      (fun ret i => ret ++ nbVelEqs i ++ nbAccEqs i fun a => sumE (s.2 i a)) s.1)

/-- The terms of the potential (`src/model/nbody.cpp` 194-204). -/
def nbPotTerms (ms : List (Expr K)) : List (Expr K) :=
  (List.range ms.length).flatMap fun i => (List.range' (i + 1) (ms.length - (i + 1))).map fun j =>
    divE (mulE (ms.getD i (.dbl 0)) (ms.getD j (.dbl 0))) (sqrtE (norm2 (nbDiff i j)))

/-- `nbody_potential_impl()` (`src/model/nbody.cpp` 176-207). -/
def nbodyPotential (n : Nat) (G : Expr K) (ms : List (Expr K)) : Res (Expr K) :=
  (nbChecks n ms).bind fun _ => .ok (mulE (negE G) (sumE (nbPotTerms ms)))

/-- `nbody_energy_impl()` (`src/model/nbody.cpp` 209-235). -/
def nbodyEnergy (n : Nat) (G : Expr K) (ms : List (Expr K)) : Res (Expr K) :=
  (nbChecks n ms).bind fun _ => (nbodyPotential n G ms).bind fun p =>
    .ok (addE (mulE (.dbl (1 / 2)) (sumE ((List.range ms.length).map fun i => mulE (ms.getD i (.dbl 0)) (norm2 (vv i))))) p)

/-! ### Relative coordinates -/

/-- `x_r3`, `y_r3`, `z_r3` (`src/model/nbody.cpp` 257-267). The index is the one of the body (one more than in the code). -/
def npR3 (i : Nat) (a : Fin 3) : Expr K := mulE (xv i a) (powE (norm2 (xv i)) (.dbl (-3 / 2)))

/-- The accelerations due to another body `j` and to the frame of reference (`src/model/nbody.cpp` 298-331); `i` and `j` are one more
than in the code. -/
def npTerms (G : Expr K) (ms : List (Expr K)) (i j : Nat) (a : Fin 3) : List (Expr K) :=
  if j = i then []
  else
    let diff : Fin 3 → Expr K := fun b => if i < j then subE (xv j b) (xv i b) else subE (xv i b) (xv j b)
    let rm3 := powE (norm2 diff) (.dbl (-3 / 2))
    let mu := mulE G (ms.getD j (.dbl 0))
    let acc := mulE mu (mulE (diff a) rm3)
    [if i < j then acc else negE acc, mulE (negE mu) (npR3 j a)]

/-- The terms of the acceleration of the body `i` (`src/model/nbody.cpp` 279-331); `i` is one more than in the code. -/
def npAcc (G : Expr K) (ms : List (Expr K)) (i : Nat) (a : Fin 3) : List (Expr K) :=
  let m0 := if 0 < ms.length then ms.getD 0 (.dbl 0) else .dbl 0
  let mi := if i < ms.length then ms.getD i (.dbl 0) else .dbl 0
  mulE (mulE (negE G) (addE m0 mi)) (npR3 i a) :: (List.range' 1 (ms.length - 1)).flatMap fun j => npTerms G ms i j a

/-- `np1body_impl()` (`src/model/nbody.cpp` 237-340). -/
def np1body (n : Nat) (G : Expr K) (ms : List (Expr K)) : Res (List (Expr K × Expr K)) :=
  (nbChecks n ms).bind fun _ =>
    .ok ((List.range' 1 (n - 1)).flatMap fun i => nbVelEqs i ++ nbAccEqs i fun a => sumE (npAcc G ms i a))

/-- `np1body_potential_impl()` (`src/model/nbody.cpp` 342-389). -/
def np1bodyPotential (n : Nat) (G : Expr K) (ms : List (Expr K)) : Res (Expr K) :=
  (nbChecks n ms).bind fun _ =>
    if ms.length = 0 then .ok (.dbl 0)
    else .ok (mulE (negE G) (sumE
      (((List.range' 1 (ms.length - 1)).map fun i => divE (mulE (ms.getD 0 (.dbl 0)) (ms.getD i (.dbl 0))) (sqrtE (norm2 (xv i)))) ++
        (List.range' 1 (ms.length - 1)).flatMap fun i => (List.range' (i + 1) (ms.length - (i + 1))).map fun j =>
          divE (mulE (ms.getD i (.dbl 0)) (ms.getD j (.dbl 0))) (sqrtE (norm2 (nbDiff i j))))))

/-- `tot_mass` (`src/model/nbody.cpp` 416-426). -/
def npMass (ms : List (Expr K)) : Expr K :=
  sumE (ms.getD 0 (.dbl 0) :: (List.range' 1 (ms.length - 1)).map fun i => ms.getD i (.dbl 0))

/-- `ud0_x`, `ud0_y`, `ud0_z` (`src/model/nbody.cpp` 416-432). -/
def npUd0 (ms : List (Expr K)) (a : Fin 3) : Expr K :=
  divE (sumE ((List.range' 1 (ms.length - 1)).map fun i => mulE (ms.getD i (.dbl 0)) (vv i a))) (negE (npMass ms))

/-- `np1body_energy_impl()` (`src/model/nbody.cpp` 391-445). -/
def np1bodyEnergy (n : Nat) (G : Expr K) (ms : List (Expr K)) : Res (Expr K) :=
  (nbChecks n ms).bind fun _ =>
    if ms.length = 0 then .ok (.dbl 0)
    else (np1bodyPotential n G ms).bind fun p =>
      .ok (addE (mulE (.dbl (1 / 2)) (sumE (mulE (ms.getD 0 (.dbl 0)) (norm2 (npUd0 ms)) ::
        (List.range' 1 (ms.length - 1)).map fun i => mulE (ms.getD i (.dbl 0)) (norm2 fun a => addE (vv i a) (npUd0 ms a))))) p)

end Heyoka.Models

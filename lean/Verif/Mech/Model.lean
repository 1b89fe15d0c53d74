import Verif.AD.Model

/-!
# Equations of motion from a Lagrangian or a Hamiltonian

Model of `lagrangian()` (`src/lagrangian.cpp`) and `hamiltonian()` (`src/hamiltonian.cpp`), on top of
the model of `diff_tensors()`.
-/

set_option linter.unusedSectionVars false

namespace Heyoka.Mech

open Heyoka.Sym Heyoka.Dtens Heyoka.AD

variable {K : Type}

/-! ### The checks of the arguments -/

/-- Names starting with `__` are reserved (`src/lagrangian.cpp` 55, `src/hamiltonian.cpp` 52). -/
def reserved (s : String) : Bool := "__".toList.isPrefixOf s.toList

/-- The checks of a list of coordinates, velocities or momenta (`src/lagrangian.cpp` 49-75,
`src/hamiltonian.cpp` 46-72): variables with names that are not reserved. The names are returned. -/
def checkVars : List (Expr K) → Res (List String)
  | [] => .ok []
  | .var s :: es => if reserved s then .throw else (checkVars es).bind fun l => .ok (s :: l)
  | _ :: _ => .throw

/-- The checks common to both functions (`src/lagrangian.cpp` 41-97, `src/hamiltonian.cpp` 35-92): as many
coordinates as velocities (momenta), at least one, no duplicates. -/
def checkState (qs ps : List (Expr K)) : Res (List String × List String) :=
  if qs.length ≠ ps.length then .throw
  else if qs.isEmpty then .throw
  else (checkVars qs).bind fun q => (checkVars ps).bind fun p =>
    if ¬ q.Nodup then .throw
    else if ¬ p.Nodup then .throw
    else if q.any fun s => p.contains s then .throw
    else .ok (q, p)

/-- `hamiltonian_impl_sanity_checks()` (`src/hamiltonian.cpp` 32-101): moreover only coordinates and momenta
occur in the Hamiltonian. -/
def hamCheck (H : Expr K) (qs ps : List (Expr K)) : Res (List String × List String) :=
  (checkState qs ps).bind fun r =>
    if (inVars [H]).all fun s => r.1.contains s || r.2.contains s then .ok r else .throw

/-- `lagrangian_impl_sanity_checks()` (`src/lagrangian.cpp` 37-114): only coordinates and velocities occur in
the Lagrangian, only velocities in the dissipation function. -/
def lagCheck (L : Expr K) (qs qds : List (Expr K)) (D : Expr K) : Res (List String × List String) :=
  (checkState qs qds).bind fun r =>
    if (inVars [L]).all fun s => r.1.contains s || r.2.contains s then
      if (inVars [D]).all fun s => r.2.contains s then .ok r else .throw
    else .throw

/-! ### Linear systems -/

/-- The augmented matrix of a linear system of `m` equations (`linmat`, `src/lagrangian.cpp` 116-144): `A i j` for
`i < m` and `j ≤ m`, the right-hand sides are in the column `m`. Simplification: a function of the
indices; all the accesses below are within these bounds. -/
abbrev LMat (K : Type) := Nat → Nat → Expr K

/-- The key of `d2L/(dqdoti dqdotj)` for `n` coordinates (`src/lagrangian.cpp` 197-205). -/
def massKey (n i j : Nat) : SIdx :=
  (0, if i = j then [(n + i, 2)] else if i < j then [(n + i, 1), (n + j, 1)] else [(n + j, 1), (n + i, 1)])

/-- The loop over `j` (`src/lagrangian.cpp` 191-213) from `j` on: the coefficients of the row `i` and the terms of its
right-hand side. The list contains the velocities from `j` on. -/
def rowLoop [Field K] [LinearOrder K] [FloorRing K] [Fold K] (n i : Nat) (Ldt : Dt (Expr K)) :
    Nat → List (Expr K) → Res (List (Expr K) × List (Expr K))
  | _, [] => .ok ([], [])
  | j, qd :: qds => (Ldt.at (massKey n i j)).bind fun a =>
    (Ldt.at (0, [(j, 1), (n + i, 1)])).bind fun b =>
      (rowLoop n i Ldt (j + 1) qds).bind fun r => .ok (a :: r.1, mulE (negE b) qd :: r.2)

/-- The row `i` of the matrix (`src/lagrangian.cpp` 168-216): the coefficients and the right-hand side. -/
def buildRow [Field K] [LinearOrder K] [FloorRing K] [Fold K] (n : Nat) (Ldt Ddt : Dt (Expr K))
    (qds : List (Expr K)) (i : Nat) : Res (List (Expr K)) :=
  (Ldt.at (0, [(i, 1)])).bind fun a =>
  (Ldt.at (0, [(n + i, 1), (n * 2, 1)])).bind fun b =>
  (Ddt.at (0, [(i, 1)])).bind fun c =>
  (rowLoop n i Ldt 0 qds).bind fun r => .ok (r.1 ++ [sumE (a :: negE b :: negE c :: r.2)])

/-- The loop over the rows (`src/lagrangian.cpp` 168). -/
def buildRows [Field K] [LinearOrder K] [FloorRing K] [Fold K] (n : Nat) (Ldt Ddt : Dt (Expr K))
    (qds : List (Expr K)) : List Nat → Res (List (List (Expr K)))
  | [] => .ok []
  | i :: is => (buildRow n Ldt Ddt qds i).bind fun r => (buildRows n Ldt Ddt qds is).bind fun rs => .ok (r :: rs)

/-- The matrix with the given rows. -/
def matOf [Field K] (rows : List (List (Expr K))) : LMat K := fun i j => ((rows[i]?.getD [])[j]?).getD (.dbl 0)

/-- `build_linmat()` (`src/lagrangian.cpp` 152-220). Simplification: the conversions of the indices to 32 bits
cannot fail, as `diff_tensors()` has already checked the number of arguments. -/
def buildLinmat [Field K] [LinearOrder K] [FloorRing K] [Fold K] (n : Nat) (Ldt Ddt : Dt (Expr K))
    (qds : List (Expr K)) : Res (LMat K) :=
  (buildRows n Ldt Ddt qds (List.range n)).bind fun rows => .ok (matOf rows)

/-- `ex_zero()` (`src/lagrangian.cpp` 222-230). -/
def exZero [Field K] [LinearOrder K] : Expr K → Bool
  | .num n => n.isZero
  | _ => false

/-- The search for the pivot in the column `k` (`src/lagrangian.cpp` 252-255). -/
def findPivot [Field K] [LinearOrder K] (m : Nat) (A : LMat K) (k i : Nat) : Nat :=
  if i < m ∧ exZero (A i k) = true then findPivot m A k (i + 1) else i
  termination_by m - i

/-- Two rows are swapped (`src/lagrangian.cpp` 264). -/
def swapRows (h p : Nat) (A : LMat K) : LMat K := fun i => if i = h then A p else if i = p then A h else A i

section
variable [Field K] [LinearOrder K] [FloorRing K] [Fold K]

/-- The rows below the row `h` are changed so that the column `k` becomes zero (`src/lagrangian.cpp` 266-277).
Every iteration of the inner loop changes one entry, and reads this entry and the row `h`. -/
def elimRows (m h k : Nat) (A : LMat K) : LMat K := fun i j =>
  if h < i ∧ i < m then
    if j = k then .dbl 0
    else if k < j ∧ j ≤ m then subE (A i j) (mulE (A h j) (divE (A i k) (A h k)))
    else A i j
  else A i j

/-- The elimination (`src/lagrangian.cpp` 246-281), with `c` columns left. -/
def elimLoop (m : Nat) : Nat → Nat → Nat → LMat K → LMat K
  | 0, _, _, A => A
  | c + 1, h, k, A =>
    if h < m then
      if findPivot m A k h = m then elimLoop m c h (k + 1) A
      else elimLoop m c (h + 1) (k + 1) (elimRows m h k (swapRows h (findPivot m A k h) A))
    else A

/-- The elimination for a system of `m` equations. -/
def elim (m : Nat) (A : LMat K) : LMat K := elimLoop m (m + 1) 0 0 A

/-- One entry is changed. -/
def setEntry (i j : Nat) (e : Expr K) (A : LMat K) : LMat K :=
  fun i' j' => if i' = i ∧ j' = j then e else A i' j'

/-- The back-substitution (`src/lagrangian.cpp` 283-302) for the first `c` rows, from the last one of them
on. -/
def backSub (m : Nat) : Nat → LMat K → LMat K
  | 0, A => A
  | c + 1, A => backSub m c (setEntry c m
      (divE (sumE (A c m :: (List.range' (c + 1) (m - (c + 1))).map fun j => mulE (negE (A c j)) (A j m))) (A c c)) A)

/-- `solve_linmat()` (`src/lagrangian.cpp` 232-303). -/
def solve (m : Nat) (A : LMat K) : LMat K := backSub m m (elim m A)

/-! ### The equations of motion -/

variable [FmtName K]

/-- The Lagrangian with the time replaced by a variable (`src/lagrangian.cpp` 320-322); `subs()` is
`Expr.replace` by C03. -/
def timeToVar (L : Expr K) : Expr K := L.replace (Sym.mapFind [(timeE, .var "__tm")])

/-- The variable is replaced by the time (`src/lagrangian.cpp` 358). -/
def varToTime (e : Expr K) : Expr K := e.replace (Sym.mapFind [(.var "__tm", timeE)])

/-- The part of `lagrangian()` after the differentiation (`src/lagrangian.cpp` 337-372). -/
def motion (Ldt Ddt : Dt (Expr K)) (qs qds : List (Expr K)) : Res (List (Expr K × Expr K)) :=
  (buildLinmat qs.length Ldt Ddt qds).bind fun A =>
    .ok ((qs ++ qds).zip
      ((qds ++ (List.range qs.length).map fun i => solve qs.length A i qs.length).map varToTime))

/-- `lagrangian()` (`src/lagrangian.cpp` 309-373). -/
def lagrangian (fuel : Nat) (share : List (Expr K) → List (Node K)) (L : Expr K) (qs qds : List (Expr K))
    (D : Expr K) : Option (Res (List (Expr K × Expr K))) :=
  match lagCheck L qs qds D with
  | .throw => some .throw
  | .ub => some .ub
  | .ok _ =>
    match diffTensors fuel share [timeToVar L] (.list (qs ++ qds ++ [.var "__tm"])) 2 with
    | none => none
    | some .throw => some .throw
    | some .ub => some .ub
    | some (.ok (Ldt, _)) =>
      match diffTensors fuel share [D] (.list qds) 1 with
      | none => none
      | some .throw => some .throw
      | some .ub => some .ub
      | some (.ok (Ddt, _)) => some (motion Ldt Ddt qs qds)

/-- The right-hand sides (`src/hamiltonian.cpp` 133-141) from the gradient; reading past the end of the
gradient is undefined behaviour. -/
def canonical (n : Nat) (grad : List (Expr K)) : Res (List (Expr K)) :=
  if grad.length < n * 2 then .ub
  else .ok ((grad.drop n).take n ++ (grad.take n).map negE)

/-- `hamiltonian()` (`src/hamiltonian.cpp` 107-144). -/
def hamiltonian (fuel : Nat) (share : List (Expr K) → List (Node K)) (H : Expr K) (qs ps : List (Expr K)) :
    Option (Res (List (Expr K × Expr K))) :=
  match hamCheck H qs ps with
  | .throw => some .throw
  | .ub => some .ub
  | .ok _ =>
    (diffTensors fuel share [H] (.list (qs ++ ps)) 1).map fun r => r.bind fun d =>
      d.1.getGradient.bind fun grad => (canonical qs.length grad).bind fun rhs => .ok ((qs ++ ps).zip rhs)

end
end Heyoka.Mech

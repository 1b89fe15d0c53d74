import Verif.Models.Basic
import Verif.Util.Res

/-!
# Spherical harmonics gravity

Model of `src/model/sh_gravity.cpp`, of the functions in `include/heyoka/model/sh_gravity.hpp` which use it, and of `src/model/egm2008.cpp`.
Degrees and orders are natural numbers, with the checks against overflow of the code. `rt` stands for `std::sqrt()`; the numerical factors are
computed exactly. A failed `assert` is undefined behaviour, a failed `at()` an exception.
-/

namespace Heyoka.Sh

open Heyoka.Sym Heyoka.Models

/-! ### Coefficients -/

/-- The loop of `isqrt()`: src/model/sh_gravity.cpp 52-61. The numbers are at most `2^32`, so that the 64-bit operations do not overflow.
`ub` if the fuel does not suffice. -/
def isqrtLoop (y : Nat) : Nat → Nat → Nat → Res Nat
  | 0, _, _ => .ub
  | k + 1, L, R =>
    if L ≠ R - 1 then
      let M := (L + R) / 2
      if M * M ≤ y then isqrtLoop y k M R else isqrtLoop y k L M
    else .ok L

/-- `isqrt()`: src/model/sh_gravity.cpp 45-64. -/
def isqrt (y : Nat) : Res Nat := isqrtLoop y (y + 1) 0 (y + 1)

/-- The maximum value of `std::uint32_t`. -/
def u32max : Nat := 4294967295

/-- The first part of `sh_gravity_cs_getter_from_list()`: the maximum degree (src/model/sh_gravity.cpp 82-114). The argument is the size of
the list. -/
def maxDegree (size : Nat) : Res Nat :=
  if size = 0 then .throw
  -- The conversion and the arithmetic on safe integers.
  else if u32max < size ∨ u32max < 8 * size + 1 then .throw
  else (isqrt (8 * size + 1)).bind fun s => if s * s ≠ 8 * size + 1 then .throw else .ok ((s - 1) / 2 - 1)

section
variable {K : Type}

/-- The getter returned by `sh_gravity_cs_getter_from_list()`: src/model/sh_gravity.cpp 116-127. -/
def csGet (cs : List (Expr K × Expr K)) (maxN n m : Nat) : Res (Expr K × Expr K) :=
  if ¬ m ≤ n then .ub
  else if ¬ n ≤ maxN then .ub
  else match cs[n * (n + 1) / 2 + m]? with
    | some p => .ok p
    | none => .ub

end

/-- `sh_gravity_resolve_n_m()`: src/model/sh_gravity.cpp 146-173. -/
def resolveNM (maxDegree maxOrder : Option Nat) (maxCsN : Nat) : Res (Nat × Nat) :=
  if maxOrder.isSome ∧ ¬ maxDegree.isSome then .throw
  else match maxDegree with
    | some d =>
      if maxCsN < d then .throw
      else match maxOrder with
        | some o => .ok (d, o)
        | none => .ok (d, d)
    | none => .ok (maxCsN, maxCsN)

/-! ### Recursion -/

/-- `sh_gravity_impl_common_checks()`: src/model/sh_gravity.cpp 181-195. -/
def commonChecks (n m : Nat) : Res Unit := if n = u32max then .throw else if n < m then .throw else .ok ()

section
variable {K : Type} [Field K] [LinearOrder K] [FloorRing K] [Fold K]

/-- `sh_gravity_impl_kdelta()`: src/model/sh_gravity.cpp 200-203. -/
def kdelta (n m : Nat) : K := if n = m then 1 else 0

/-- The map with the V/W terms. The keys are the degree and the order. -/
abbrev RecMap (K : Type) := List ((Nat × Nat) × (Expr K × Expr K))

/-- `rec_map.at()`. -/
def RecMap.at (mp : RecMap K) (k : Nat × Nat) : Res (Expr K × Expr K) :=
  match mp.lookup k with
  | some p => .ok p
  | none => .throw

/-- `try_emplace()` after the assertion that the key is new. -/
def RecMap.emplace (mp : RecMap K) (k : Nat × Nat) (p : Expr K × Expr K) : Res (RecMap K) :=
  match mp.lookup k with
  | some _ => .ub
  | none => .ok ((k, p) :: mp)

/-- `F1`: src/model/sh_gravity.cpp 240-241. -/
def fac1 (rt : K → K) (n m : Nat) : K := rt (((2 * n + 1) * (2 * n - 1)) / ((n - m) * (n + m)))

/-- `F2`: src/model/sh_gravity.cpp 253-255. -/
def fac2 (rt : K → K) (n m : Nat) : K := rt (((2 * n + 1) * (n - m - 1) * (n + m - 1)) / ((n - m) * (n + m) * (2 * n - 3)))

/-- `F`: src/model/sh_gravity.cpp 270-271. -/
def fac0 (rt : K → K) (m : Nat) : K :=
  rt (((2 - kdelta 0 (m + 1)) * (2 * ((m + 1 : Nat) : K) + 1)) / (2 * ((m + 1 : Nat) : K) * (2 - kdelta 0 m)))

/-- The loop over the degrees: src/model/sh_gravity.cpp 236-265. The first numerical argument is the number of iterations left. -/
def recInner (rt : K → K) (za a2 : Expr K) (m : Nat) : Nat → Nat → RecMap K → Res (RecMap K)
  | 0, _, mp => .ok mp
  | k + 1, n, mp =>
    (mp.at (n - 1, m)).bind fun p =>
      let V := mulE (mulE (.dbl (fac1 rt n m)) za) p.1
      let W := mulE (mulE (.dbl (fac1 rt n m)) za) p.2
      (if n ≠ m + 1 then
        (mp.at (n - 2, m)).bind fun q =>
          Res.ok (subE V (mulE (mulE (.dbl (fac2 rt n m)) a2) q.1), subE W (mulE (mulE (.dbl (fac2 rt n m)) a2) q.2))
      else .ok (V, W)).bind fun vw =>
      (mp.emplace (n, m) vw).bind fun mp => recInner rt za a2 m k (n + 1) mp

/-- The loop over the orders: src/model/sh_gravity.cpp 235-276. -/
def recOuter (rt : K → K) (maxN : Nat) (xa ya za a2 : Expr K) : Nat → Nat → RecMap K → Res (RecMap K)
  | 0, _, mp => .ok mp
  | k + 1, m, mp =>
    (recInner rt za a2 m (maxN - m) (m + 1) mp).bind fun mp =>
      (mp.at (m, m)).bind fun p =>
        let V := mulE (.dbl (fac0 rt m)) (subE (mulE xa p.1) (mulE ya p.2))
        let W := mulE (.dbl (fac0 rt m)) (addE (mulE xa p.2) (mulE ya p.1))
        (mp.emplace (m + 1, m + 1) (V, W)).bind fun mp => recOuter rt maxN xa ya za a2 k (m + 1) mp

/-- `sh_gravity_impl_make_rec_map()`: src/model/sh_gravity.cpp 217-298. The debug checks at the end are not modelled. -/
def recMap (rt : K → K) (maxN : Nat) (xa ya za a2 ar : Expr K) : Res (RecMap K) :=
  if maxN = u32max then .throw else recOuter rt maxN xa ya za a2 maxN 0 [((0, 0), (ar, .dbl 0))]

/-! ### Potential and acceleration -/

/-- A loop which accumulates the results of the iterations. -/
def accLoop {α β : Type} (app : β → β → β) (f : α → Res β) : List α → β → Res β
  | [], b => .ok b
  | a :: as, b => (f a).bind fun c => accLoop app f as (app b c)

/-- `r2`: src/model/sh_gravity.cpp 312, 362. -/
def shR2 (xyz : Fin 3 → Expr K) : Expr K := norm2 xyz

/-- The call of `sh_gravity_impl_make_rec_map()` with the quantities computed before: src/model/sh_gravity.cpp 312-322, 362-372. -/
def shMap (rt : K → K) (xyz : Fin 3 → Expr K) (maxN : Nat) (a : Expr K) : Res (RecMap K) :=
  let a_r2 := divE a (shR2 xyz)
  recMap rt maxN (mulE (xyz 0) a_r2) (mulE (xyz 1) a_r2) (mulE (xyz 2) a_r2) (mulE a a_r2) (divE a (sqrtE (shR2 xyz)))

/-- A term of the potential: src/model/sh_gravity.cpp 330-333. -/
def potTerm (mp : RecMap K) (cs : Nat → Nat → Res (Expr K × Expr K)) (i j : Nat) : Res (List (Expr K)) :=
  (cs i j).bind fun c => (mp.at (i, j)).bind fun p => .ok [addE (mulE c.1 p.1) (mulE c.2 p.2)]

/-- `sh_gravity_pot_impl()`: src/model/sh_gravity.cpp 302-338. -/
def shPotImpl (rt : K → K) (xyz : Fin 3 → Expr K) (n m : Nat) (mu a : Expr K) (cs : Nat → Nat → Res (Expr K × Expr K)) : Res (Expr K) :=
  (commonChecks n m).bind fun _ =>
    (shMap rt xyz n a).bind fun mp =>
      (accLoop (· ++ ·) (fun i => accLoop (· ++ ·) (potTerm mp cs i) (List.range (min m i + 1)) []) (List.range (n + 1)) []).bind fun terms =>
        .ok (mulE (divE mu a) (sumE terms))

/-- `cxy_0`: src/model/sh_gravity.cpp 387-388 (without the factor 1/2 of line 398). -/
def facXY0 (rt : K → K) (i j : Nat) : K :=
  rt (((2 - kdelta 0 j) * (2 * i + 1) * (2 + i + j) * (1 + i + j)) / ((2 - kdelta 0 (j + 1)) * (2 * i + 3)))

/-- `cz`: src/model/sh_gravity.cpp 389. -/
def facZ (rt : K → K) (i j : Nat) : K := (1 + i - j) * rt (((1 + i + j) * (2 * i + 1)) / ((2 * i + 3) * (1 + i - j)))

/-- `cxy_1`: src/model/sh_gravity.cpp 399-402. -/
def facXY1 (rt : K → K) (i j : Nat) : K :=
  1 / 2 * (2 + i - j) * (1 + i - j) *
    rt (((2 - kdelta 0 j) * (2 * i + 1)) / ((2 - kdelta 0 (j - 1)) * (2 * i + 3) * (2 + i - j) * (1 + i - j)))

/-- `a * b * c` as an expression. -/
def mul3 (a : Expr K) (b : K) (c : Expr K) : Expr K := mulE (mulE a (.dbl b)) c

/-- The vectors `x_terms`, `y_terms` and `z_terms`. -/
abbrev Terms (K : Type) := List (Expr K) × List (Expr K) × List (Expr K)

/-- Insertion at the end of the three vectors. -/
def Terms.app (a b : Terms K) : Terms K := (a.1 ++ b.1, a.2.1 ++ b.2.1, a.2.2 ++ b.2.2)

/-- The terms of the acceleration for one degree and order: src/model/sh_gravity.cpp 382-412. -/
def accTerm (rt : K → K) (mp : RecMap K) (cs : Nat → Nat → Res (Expr K × Expr K)) (i j : Nat) : Res (Terms K) :=
  (cs i j).bind fun c =>
    (if j = 0 then
      (mp.at (i + 1, 1)).bind fun p =>
        Res.ok ([mul3 (negE c.1) (facXY0 rt i j) p.1], [mul3 (negE c.1) (facXY0 rt i j) p.2])
    else
      (mp.at (i + 1, j + 1)).bind fun p =>
        (mp.at (i + 1, j - 1)).bind fun q =>
          let c0 := facXY0 rt i j * (1 / 2)
          let c1 := facXY1 rt i j
          Res.ok ([mul3 (negE c.1) c0 p.1, mul3 (negE c.2) c0 p.2, mul3 c.1 c1 q.1, mul3 c.2 c1 q.2],
            [mul3 (negE c.1) c0 p.2, mul3 c.2 c0 p.1, mul3 (negE c.1) c1 q.2, mul3 c.2 c1 q.1])).bind fun xy =>
      (mp.at (i + 1, j)).bind fun p =>
        .ok (xy.1, xy.2, [mul3 (negE c.1) (facZ rt i j) p.1, mul3 (negE c.2) (facZ rt i j) p.2])

/-- `sh_gravity_acc_impl()`: src/model/sh_gravity.cpp 350-417. -/
def shAccImpl (rt : K → K) (xyz : Fin 3 → Expr K) (n m : Nat) (mu a : Expr K) (cs : Nat → Nat → Res (Expr K × Expr K)) : Res (Fin 3 → Expr K) :=
  (commonChecks n m).bind fun _ =>
    (shMap rt xyz (n + 1) a).bind fun mp =>
      (accLoop Terms.app (fun i => accLoop Terms.app (accTerm rt mp cs i) (List.range (min m i + 1)) ([], [], [])) (List.range (n + 1))
        ([], [], [])).bind fun t =>
        let mu_a2 := divE mu (sq a)
        .ok ![mulE mu_a2 (sumE t.1), mulE mu_a2 (sumE t.2.1), mulE mu_a2 (sumE t.2.2)]

/-- `sh_gravity_pot()`: include/heyoka/model/sh_gravity.hpp 144-158. The degree and the order have been converted to unsigned integers. -/
def shPot (rt : K → K) (xyz : Fin 3 → Expr K) (mu a : Expr K) (cs : List (Expr K × Expr K)) (maxDeg maxOrd : Option Nat) : Res (Expr K) :=
  (maxDegree cs.length).bind fun N => (resolveNM maxDeg maxOrd N).bind fun nm => shPotImpl rt xyz nm.1 nm.2 mu a (csGet cs N)

/-- `sh_gravity_acc()`: include/heyoka/model/sh_gravity.hpp 160-174. -/
def shAcc (rt : K → K) (xyz : Fin 3 → Expr K) (mu a : Expr K) (cs : List (Expr K × Expr K)) (maxDeg maxOrd : Option Nat) : Res (Fin 3 → Expr K) :=
  (maxDegree cs.length).bind fun N => (resolveNM maxDeg maxOrd N).bind fun nm => shAccImpl rt xyz nm.1 nm.2 mu a (csGet cs N)

/-! ### EGM2008 -/

/-- `get_egm2008_cs()`: src/model/egm2008.cpp 46-71. `tbl` is the table of the coefficients. -/
def egmGet (tbl : List (K × K)) (n m : Nat) : Res (Expr K × Expr K) :=
  if ¬ m ≤ n then .ub
  else if n = 0 then .ok (.dbl 1, .dbl 0)
  else if n = 1 then .ok (.dbl 0, .dbl 0)
  else match tbl[n * (n + 1) / 2 - 3 + m]? with
    | some p => .ok (.dbl p.1, .dbl p.2)
    | none => .ub

/-- `egm2008_max_degree`: include/heyoka/detail/egm2008.hpp 21. -/
def egmMaxDegree : Nat := 150

/-- `egm2008_common_checks()`: src/model/egm2008.cpp 79-93. -/
def egmChecks (n m : Nat) : Res Unit := if egmMaxDegree < n then .throw else if n < m then .throw else .ok ()

/-- `egm2008_pot_impl()`: src/model/egm2008.cpp 98-106. -/
def egmPot (rt : K → K) (tbl : List (K × K)) (xyz : Fin 3 → Expr K) (n m : Nat) (mu a : Expr K) : Res (Expr K) :=
  (egmChecks n m).bind fun _ => shPotImpl rt xyz n m mu a (egmGet tbl)

/-- `egm2008_acc_impl()`: src/model/egm2008.cpp 109-118. -/
def egmAcc (rt : K → K) (tbl : List (K × K)) (xyz : Fin 3 → Expr K) (n m : Nat) (mu a : Expr K) : Res (Fin 3 → Expr K) :=
  (egmChecks n m).bind fun _ => shAccImpl rt xyz n m mu a (egmGet tbl)

end

end Heyoka.Sh

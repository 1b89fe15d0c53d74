import Verif.Models.Basic
import Verif.Util.Res

/-!
# Analytical theories of celestial mechanics

Model of `src/detail/analytical_theories_helpers.cpp`, `src/model/iau2006.cpp`, `src/model/vsop2013.cpp` (elliptic elements) and
`src/model/elp2000.cpp` (spherical coordinates). The tables of coefficients are parameters. Numbers are real numbers: the conversions of units, the
corrections of the amplitudes, `std::sqrt()`, `std::cbrt()`, `std::cos()` and `std::sin()` of numbers are exact. A threshold is `none` if it is not
finite.
-/

namespace Heyoka.Theory

open Heyoka.Sym Heyoka.Models

/-- A complex expression: real and imaginary part. -/
abbrev CE := Expr ℝ × Expr ℝ

/-- `horner_eval()` (`include/heyoka/detail/analytical_theories_helpers.hpp` 41-55). Numbers are converted to expressions. -/
noncomputable def hornerE (cfs : List (Expr ℝ)) (x : Expr ℝ) : Expr ℝ :=
  match cfs.reverse with
  | [] => .dbl 0
  | c :: cs => cs.foldl (fun ret c => addE c (mulE ret x)) c

/-- `horner_eval()` with numbers as coefficients. -/
noncomputable def hornerN (cfs : List ℝ) (x : Expr ℝ) : Expr ℝ := hornerE (cfs.map .dbl) x

/-- `ex_cmul()` (`src/detail/analytical_theories_helpers.cpp` 34-40). -/
noncomputable def exCmul (c1 c2 : CE) : CE :=
  (subE (mulE c1.1 c2.1) (mulE c1.2 c2.2), addE (mulE c1.2 c2.1) (mulE c1.1 c2.2))

/-- `ex_cinv()` (`src/detail/analytical_theories_helpers.cpp` 43-50). -/
noncomputable def exCinv (c : CE) : CE :=
  let den := addE (sq c.1) (sq c.2)
  (divE c.1 den, divE (negE c.2) den)

/-- `pow_dict_t` (`include/heyoka/detail/analytical_theories_helpers.hpp` 63). The integers are those of `std::int8_t`. -/
abbrev PowDict := List (Int × CE)

/-- `trig_eval_dict_t` (`include/heyoka/detail/analytical_theories_helpers.hpp` 70). -/
abbrev TrigDict := List (Expr ℝ × PowDict)

/-- `ccpow_impl()` (`src/detail/analytical_theories_helpers.cpp` 56-76). The depth of the recursion is bounded by the first argument; a recursion
which is not finished then does not end. Inserting a key which is already there is the failed assertion at line 73. -/
noncomputable def ccpowImpl (pow1 powm1 : CE) : Nat → PowDict → Int → Res (CE × PowDict)
  | 0, _, _ => .ub
  | fuel + 1, pd, n =>
    match pd.lookup n with
    | some c => .ok (c, pd)
    | none =>
      (if 0 ≤ n then (ccpowImpl pow1 powm1 fuel pd (n - 1)).bind fun r => .ok (exCmul pow1 r.1, r.2)
        else (ccpowImpl pow1 powm1 fuel pd (n + 1)).bind fun r => .ok (exCmul powm1 r.1, r.2)).bind fun r =>
      if (r.2.lookup n).isSome then .ub else .ok (r.1, (n, r.1) :: r.2)

/-- Replaces the value of a key. -/
noncomputable def setKey (ex : Expr ℝ) (pd : PowDict) (td : TrigDict) : TrigDict := td.map fun e => if e.1 = ex then (ex, pd) else e

/-- `ccpow()` (`src/detail/analytical_theories_helpers.cpp` 82-96). The keys are compared as expressions. The failed assertions are undefined
behaviour. 256 is the number of the values of `std::int8_t`. -/
noncomputable def ccpow (ex : Expr ℝ) (td : TrigDict) (n : Int) : Res (CE × TrigDict) :=
  match td.lookup ex with
  | none => .ub
  | some pd =>
    match pd.lookup 1, pd.lookup (-1) with
    | some pow1, some powm1 => (ccpowImpl pow1 powm1 256 pd n).bind fun r => .ok (r.1, setKey ex r.2 td)
    | _, _ => .ub

/-- One pass of the loop of `pairwise_cmul()` (`src/detail/analytical_theories_helpers.cpp` 113-128). -/
noncomputable def pairStep : List CE → List CE
  | [] => []
  | [a] => [a]
  | a :: b :: l => exCmul a b :: pairStep l

/-- The loop of `pairwise_cmul()` (`src/detail/analytical_theories_helpers.cpp` 113-130). The first argument bounds the number of iterations; running
out of it is a loop which does not end. -/
noncomputable def pairLoop : Nat → List CE → Res CE
  | _, [c] => .ok c
  | 0, _ => .ub
  | fuel + 1, l => pairLoop fuel (pairStep l)

/-- `pairwise_cmul()` (`src/detail/analytical_theories_helpers.cpp` 99-131), without the check of the largest size of vectors. -/
noncomputable def pairwiseCmul (terms : List CE) : Res CE :=
  if terms.isEmpty then .ok (.dbl 1, .dbl 0) else pairLoop terms.length terms

/-- Seeding of the powers 0, 1 and -1 (`src/model/iau2006.cpp` 132-142, `src/model/elp2000.cpp` 134-144). An argument which is already there keeps its
powers: the code assigns the same three values again. (In debug mode, the assertion about `flag` fails then.) -/
noncomputable def seed (td : TrigDict) (arg : Expr ℝ) : TrigDict :=
  let c : CE := (unaryE (.cos false) arg, unaryE (.sin false) arg)
  if (td.lookup arg).isSome then td else (arg, [(-1, exCinv c), (1, c), (0, (.dbl 1, .dbl 0))]) :: td

/-- The powers of the arguments with non-zero indices (`src/model/iau2006.cpp` 187-193, `src/model/elp2000.cpp` 204-208). -/
noncomputable def gather : List (Expr ℝ × Int) → TrigDict → Res (List CE × TrigDict)
  | [], td => .ok ([], td)
  | (a, n) :: l, td =>
    if n = 0 then gather l td
    else (ccpow a td n).bind fun r => (gather l r.2).bind fun q => .ok (r.1 :: q.1, q.2)

/-! ### IAU2006 -/

/-- A row of the tables of the IAU2006 theory: coefficients of sine and cosine in microarcseconds, and the indices. -/
structure IauRow where
  s : ℝ
  c : ℝ
  idx : List Int

/-- `arcsec2rad` (`src/model/iau2006.cpp` 99). -/
noncomputable def arcsec2rad : ℝ := Real.pi / (180 * 3600)

/-- `uas2rad` (`src/model/iau2006.cpp` 100). -/
noncomputable def uas2rad : ℝ := Real.pi / (180 * 3600 * 1e6)

/-- `trig_builder` (`src/model/iau2006.cpp` 168-202). -/
noncomputable def trigBuilder (args : List (Expr ℝ)) (thresh : ℝ) : List IauRow → TrigDict → Res (List (Expr ℝ) × TrigDict)
  | [], td => .ok ([], td)
  | r :: rs, td =>
    let sinCf := r.s / 1e6
    let cosCf := r.c / 1e6
    if Real.sqrt (sinCf * sinCf + cosCf * cosCf) < thresh then trigBuilder args thresh rs td
    else
      (gather (args.zip r.idx) td).bind fun g => (pairwiseCmul g.1).bind fun c =>
        (trigBuilder args thresh rs g.2).bind fun q =>
          .ok (mulE (.dbl (cosCf * arcsec2rad)) c.1 :: mulE (.dbl (sinCf * arcsec2rad)) c.2 :: q.1, q.2)

/-- The series for the powers of the time (`src/model/iau2006.cpp` 204-234): sums of the terms. -/
noncomputable def trigSums (args : List (Expr ℝ)) (thresh : ℝ) : List (List IauRow) → TrigDict → Res (List (Expr ℝ) × TrigDict)
  | [], td => .ok ([], td)
  | t :: ts, td =>
    (trigBuilder args thresh t td).bind fun r => (trigSums args thresh ts r.2).bind fun q => .ok (sumE r.1 :: q.1, q.2)

/-- The coefficients of the lunisolar arguments in arcseconds (`src/model/iau2006.cpp` 56-60). -/
noncomputable def lunisolar : List (List ℝ) :=
  [[485868.24903600005, 1717915923.2178, 31.8792, 0.051635, -0.00024470],
   [1287104.793048, 129596581.0481, -0.5532, 0.000136, -0.00001149],
   [335779.526232, 1739527262.8478, -12.7512, -0.001037, 0.00000417],
   [1072260.7036920001, 1602961601.2090, -6.3706, 0.006593, -0.00003169],
   [450160.39803599997, -6962890.5431, 7.4722, 0.007702, -0.00005939]]

/-- The coefficients of the planetary arguments in radians (`src/model/iau2006.cpp` 64-74). -/
noncomputable def planetary : List (List ℝ) :=
  [[4.402608842, 2608.7903141574], [3.176146697, 1021.3285546211], [1.753470314, 628.3075849991], [6.203480913, 334.0612426700],
   [0.599546497, 52.9690962641], [0.874016757, 21.3299104960], [5.481293872, 7.4781598567], [5.311886287, 3.8133035638],
   [0, 0.02438175, 0.00000538691]]

/-- `poly_X` (`src/model/iau2006.cpp` 78). -/
noncomputable def polyX : List ℝ := [-0.016617, 2004.191898, -0.4297829, -0.19861834, 0.000007578, 0.0000059285]

/-- `poly_Y` (`src/model/iau2006.cpp` 79). -/
noncomputable def polyY : List ℝ := [-0.006951, -0.025896, -22.4072747, 0.00190059, 0.001112526, 0.0000001358]

/-- `poly_s` (`src/model/iau2006.cpp` 80). -/
noncomputable def polyS : List ℝ := [94.0, 3808.65, -122.68, -72574.11, 27.98, 15.62]

/-- The fundamental arguments (`src/model/iau2006.cpp` 108-128). -/
noncomputable def iauArgs (tm : Expr ℝ) : List (Expr ℝ) :=
  lunisolar.map (fun p => mulE (hornerN p tm) (.dbl arcsec2rad)) ++ planetary.map fun p => hornerN p tm

/-- `iau2006_impl()` (`src/model/iau2006.cpp` 84-242). The tables of the three series, for the powers of the time from 0 to 4, are parameters. -/
noncomputable def iau2006 (TX TY TS : List (List IauRow)) (tm : Expr ℝ) (thresh : Option ℝ) : Res (Expr ℝ × Expr ℝ × Expr ℝ) :=
  match thresh with
  | none => .throw
  | some th =>
    if th < 0 then .throw
    else
      let args := iauArgs tm
      let td := args.foldl seed []
      (trigSums args th TX td).bind fun x => (trigSums args th TY x.2).bind fun y => (trigSums args th TS y.2).bind fun s =>
        let X := addE (mulE (hornerN polyX tm) (.dbl arcsec2rad)) (hornerE x.1 tm)
        let Y := addE (mulE (hornerN polyY tm) (.dbl arcsec2rad)) (hornerE y.1 tm)
        .ok (X, Y, sumE [mulE (hornerN polyS tm) (.dbl uas2rad), hornerE s.1 tm, divE (negE (mulE X Y)) (.dbl 2)])

/-! ### VSOP2013 -/

/-- A row of the tables of VSOP2013: coefficients of sine and cosine and the 17 indices. -/
structure VsopRow where
  s : ℝ
  c : ℝ
  idx : List Int

/-- `lam_l_data` (`src/model/vsop2013.cpp` 199-215). -/
noncomputable def lamData : List (ℝ × ℝ) :=
  [(4.402608631669, 26087.90314068555), (3.176134461576, 10213.28554743445), (1.753470369433, 6283.075850353215),
   (6.203500014141, 3340.612434145457), (4.091360003050, 1731.170452721855), (1.713740719173, 1704.450855027201),
   (5.598641292287, 1428.948917844273), (2.805136360408, 1364.756513629990), (2.326989734620, 1361.923207632842),
   (0.599546107035, 529.6909615623250), (0.874018510107, 213.2990861084880), (5.481225395663, 74.78165903077800),
   (5.311897933164, 38.13297222612500), (0, 0.3595362285049309), (5.198466400630, 77713.7714481804),
   (1.627905136020, 84334.6615717837), (2.355555638750, 83286.9142477147)]

/-- A term of a chunk (`src/model/vsop2013.cpp` 249-294): a term which is too small is left as the default expression, zero. The four loops over the
indices of a row fill the 17 entries of `trig`. -/
noncomputable def vsopTerm (t : Expr ℝ) (thresh : ℝ) (r : VsopRow) : Expr ℝ :=
  if Real.sqrt (r.c * r.c + r.s * r.s) < thresh then .dbl 0
  else
    let arg := sumE ((lamData.zip r.idx).map fun p => mulE (addE (.dbl p.1.1) (mulE t (.dbl p.1.2))) (.dbl (p.2 : ℝ)))
    addE (mulE (.dbl r.s) (unaryE (.sin false) arg)) (mulE (.dbl r.c) (unaryE (.cos false) arg))

/-- The terms which are kept: all but the number zero (`src/model/vsop2013.cpp` 299-306). -/
noncomputable def notZero : Expr ℝ → Bool
  | .num n => !n.isZero
  | _ => true

/-- A chunk (`src/model/vsop2013.cpp` 235-313): the terms (every iteration of the parallel loop writes its own element), without the zeros, which are
moved to the end and erased, and their sum. -/
noncomputable def vsopChunk (t : Expr ℝ) (thresh : ℝ) (rows : List VsopRow) : Expr ℝ :=
  sumE ((rows.map (vsopTerm t thresh)).filter notZero)

/-- `vsop2013_elliptic_impl()` (`src/model/vsop2013.cpp` 177-319). The data of a planet and a variable are a list of tables, one for each power of the
time. -/
noncomputable def vsopElliptic (data : Nat → Nat → List (List VsopRow)) (pl var : Nat) (t : Expr ℝ) (thresh : Option ℝ) : Res (Expr ℝ) :=
  if pl < 1 ∨ 9 < pl then .throw
  else if var < 1 ∨ 6 < var then .throw
  else
    match thresh with
    | none => .throw
    | some th => if th < 0 then .throw else .ok (hornerE ((data pl var).map (vsopChunk t th)) t)

/-! ### ELP2000 -/

/-- A row of the tables of ELP2000: the number compared with the threshold, the amplitude, the phase and the indices. -/
structure ElpRow where
  test : ℝ
  amp : ℝ
  phi : ℝ
  idx : List Int

/-- The block of code of a table (`src/model/elp2000.cpp` 224-248 and 35 others): the terms which are added. The tables of the main problem have no
phase; the first coordinate of the complex product is used for the distance (`cosine`), the second for the others. -/
noncomputable def elpBlock (args : List (Expr ℝ)) (cosine : Bool) (thresh : ℝ) : List ElpRow → TrigDict → Res (List (Expr ℝ) × TrigDict)
  | [], td => .ok ([], td)
  | r :: rs, td =>
    if |r.test| > thresh then
      (gather (args.zip r.idx) td).bind fun g =>
        (pairwiseCmul (g.1 ++ if r.phi ≠ 0 then [(.dbl (Real.cos r.phi), .dbl (Real.sin r.phi))] else [])).bind fun c =>
          (elpBlock args cosine thresh rs g.2).bind fun q => .ok (mulE (.dbl r.amp) (if cosine then c.1 else c.2) :: q.1, q.2)
    else elpBlock args cosine thresh rs td

/-- A row of a table of the main problem: amplitude, the coefficients of the corrections and the indices of the arguments. -/
structure ElpMain where
  A : ℝ
  B1 : ℝ
  B2 : ℝ
  B3 : ℝ
  B4 : ℝ
  B5 : ℝ
  idx : List Int

/-- A row of a table of perturbations: phase, amplitude and the indices of the arguments. -/
structure ElpPert where
  phi : ℝ
  A : ℝ
  idx : List Int

/-- `a0` (`src/model/elp2000.cpp` 175). -/
noncomputable def elpA0 : ℝ := 384747.980674

/-- The correction of the amplitude of a row of the main problem, before the conversion of units (`src/model/elp2000.cpp` 176-187, 213). -/
noncomputable def elpCorr (r : ElpMain) : ℝ :=
  let nu : ℝ := 1732559343.18
  let np : ℝ := 129597742.34
  let m := np / nu
  let dnu : ℝ := 0.55604
  let dnp : ℝ := -0.0642
  let alpha := (m * m * 3.040423956e-6) ^ (1 / 3 : ℝ)
  let alpha2m3 := 2 * alpha / (3 * m)
  let b15 := (dnp - m * dnu) / nu
  (r.B1 + r.B5 * alpha2m3) * b15 + -0.08066 / 206264.81 * r.B2 + 0.01789 / 206264.81 * r.B3 + -0.12879 / 206264.81 * r.B4

/-- A row of the main problem for longitude and latitude (`src/model/elp2000.cpp` 198-217, 553-572). -/
noncomputable def elpMainAng (r : ElpMain) : ElpRow := ⟨r.A, r.A + elpCorr r * 4.8481368110953598e-06, 0, r.idx⟩

/-- A row of the main problem for the distance (`src/model/elp2000.cpp` 908-927). -/
noncomputable def elpMainDist (r : ElpMain) : ElpRow := ⟨r.A / elpA0, r.A + (elpCorr r - 2 * r.A * 0.55604 / (3 * 1732559343.18)), 0, r.idx⟩

/-- A row of perturbations in longitude and latitude (`src/model/elp2000.cpp` 227-246, and so on). -/
noncomputable def elpPertAng (r : ElpPert) : ElpRow := ⟨r.A, r.A, r.phi, r.idx⟩

/-- A row of perturbations in distance (`src/model/elp2000.cpp` 937-956, and so on). -/
noncomputable def elpPertDist (r : ElpPert) : ElpRow := ⟨r.A / elpA0, r.A, r.phi, r.idx⟩

/-- `W1` (`src/model/elp2000.cpp` 50-51). -/
noncomputable def elpW1 : List ℝ := [3.8103444305883079, 8399.6847317739157, -2.8547283984772807e-05, 3.2017095500473753e-08, -1.5363745554361197e-10]

/-- `zeta` (`src/model/elp2000.cpp` 54). -/
noncomputable def elpZeta : List ℝ := [3.8103444305883079, 8399.6847317739157 + 0.024381748353014515]

/-- `D` (`src/model/elp2000.cpp` 57-58). -/
noncomputable def elpD : List ℝ := [5.1984667410274437, 7771.3771468120494, -2.8449351621188683e-05, 3.1973462269173901e-08, -1.5436467606527627e-10]

/-- `lp` (`src/model/elp2000.cpp` 61). -/
noncomputable def elpLp : List ℝ := [6.2400601269714615, 628.30195516800313, -2.680534842854624e-06, 7.1267611123101784e-10]

/-- `l` (`src/model/elp2000.cpp` 64-65). -/
noncomputable def elpL : List ℝ := [2.3555558982657985, 8328.6914269553617, 0.00015702775761561094, 2.5041111442988642e-07, -1.1863390776750345e-09]

/-- `F` (`src/model/elp2000.cpp` 68-69). -/
noncomputable def elpF : List ℝ := [1.6279052333714679, 8433.4661581308319, -5.9392100004323707e-05, -4.9499476841283623e-09, 2.021673050226765e-11]

/-- The longitudes of the planets (`src/model/elp2000.cpp` 73-84), in the order of the arguments of the tables 10 to 15: `Me`, `V_`, `T`, `Ma`, `J`,
`S`, `U_`, `N`. -/
noncomputable def elpPlanets : List (List ℝ) :=
  [[4.4026088424029615, 2608.7903141574106], [3.1761466969075944, 1021.3285546211089], [1.753470343150658, 628.30758496215537],
   [6.2034809133999449, 334.06124314922965], [0.59954649738867349, 52.969096509472053], [0.87401675651848076, 21.329909543800007],
   [5.4812938716049908, 7.4781598567143535], [5.3118862867834666, 3.8133035637584562]]

/-- The four kinds of lists of arguments. -/
inductive ElpKind where
  | main | zeta | plan1 | plan2

/-- The coefficients of the arguments of a table (`src/model/elp2000.cpp` 194, 223, 281-282, 341-342, and so on). The linear versions of the Delaunay
arguments keep the first two coefficients. -/
noncomputable def elpCfs : ElpKind → List (List ℝ)
  | .main => [elpD, elpLp, elpL, elpF]
  | .zeta => [elpZeta, elpD.take 2, elpLp.take 2, elpL.take 2, elpF.take 2]
  | .plan1 => elpPlanets ++ [elpD.take 2, elpL.take 2, elpF.take 2]
  | .plan2 => elpPlanets.take 7 ++ [elpD.take 2, elpLp.take 2, elpL.take 2, elpF.take 2]

/-- The arguments which are seeded (`src/model/elp2000.cpp` 146-162), in that order. -/
noncomputable def elpSeeds : List (List ℝ) :=
  [elpZeta, elpD, elpD.take 2, elpLp, elpLp.take 2, elpL, elpL.take 2, elpF, elpF.take 2] ++
    [[4.4026088424029615, 2608.7903141574106], [3.1761466969075944, 1021.3285546211089], [6.2034809133999449, 334.06124314922965],
     [0.59954649738867349, 52.969096509472053], [0.87401675651848076, 21.329909543800007], [5.4812938716049908, 7.4781598567143535],
     [5.3118862867834666, 3.8133035637584562], [1.753470343150658, 628.30758496215537]]

/-- The tables: those of the main problem have the numbers 1 to 3, those of the perturbations 4 to 36. -/
structure ElpTables where
  main : Nat → List ElpMain
  pert : Nat → List ElpPert

/-- The tables of perturbations of a coordinate in the order of the code, as the number of the table of the longitude, the kind of arguments and the
power of the time (`src/model/elp2000.cpp` 221-538; 576-893 for the latitude and 931-1248 for the distance, with numbers greater by one and two). -/
def elpPlan : List (Nat × ElpKind × Nat) :=
  [(4, .zeta, 0), (7, .zeta, 1), (10, .plan1, 0), (13, .plan1, 1), (16, .plan2, 0), (19, .plan2, 1), (22, .zeta, 0), (25, .zeta, 1), (28, .zeta, 0),
   (31, .zeta, 0), (34, .zeta, 2)]

/-- The lists of terms multiplied by the powers 0, 1 and 2 of the time. -/
abbrev Terms3 := List (Expr ℝ) × List (Expr ℝ) × List (Expr ℝ)

/-- `push_back()` into the list for a power of the time. -/
def Terms3.push (t : Terms3) (pw : Nat) (l : List (Expr ℝ)) : Terms3 :=
  match pw with
  | 0 => (t.1 ++ l, t.2.1, t.2.2)
  | 1 => (t.1, t.2.1 ++ l, t.2.2)
  | _ => (t.1, t.2.1, t.2.2 ++ l)

/-- The arguments of a kind as expressions. -/
noncomputable def elpArgs (tm : Expr ℝ) (k : ElpKind) : List (Expr ℝ) := (elpCfs k).map fun p => hornerN p tm

/-- The blocks of the perturbations of a coordinate. -/
noncomputable def elpPerts (tm : Expr ℝ) (thresh : ℝ) (rows : Nat → List ElpRow) :
    List (Nat × ElpKind × Nat) → Terms3 → TrigDict → Res (Terms3 × TrigDict)
  | [], t, td => .ok (t, td)
  | (n, k, pw) :: l, t, td =>
    (elpBlock (elpArgs tm k) false thresh (rows n) td).bind fun q => elpPerts tm thresh rows l (t.push pw q.1) q.2

/-- All the blocks of a coordinate, and the sum of the terms with Horner's scheme for the time (`src/model/elp2000.cpp` 1257-1275). -/
noncomputable def elpCoord (tm : Expr ℝ) (thresh : ℝ) (init : List (Expr ℝ)) (cosine : Bool) (main : List ElpRow) (rows : Nat → List ElpRow)
    (td : TrigDict) : Res (Expr ℝ × TrigDict) :=
  (elpBlock (elpArgs tm .main) cosine thresh main td).bind fun q =>
    (elpPerts tm thresh rows elpPlan (init ++ q.1, [], []) q.2).bind fun r =>
      .ok (hornerE [sumE r.1.1, sumE r.1.2.1, sumE r.1.2.2] tm, r.2)

/-- `elp2000_spherical_impl()` (`src/model/elp2000.cpp` 95-1278): distance, latitude and longitude. -/
noncomputable def elpSpherical (T : ElpTables) (tm : Expr ℝ) (thresh : Option ℝ) : Res (Expr ℝ × Expr ℝ × Expr ℝ) :=
  match thresh with
  | none => .throw
  | some th =>
    if th < 0 then .throw
    else
      let td := (elpSeeds.map fun p => hornerN p tm).foldl seed []
      (elpCoord tm th [hornerN elpW1 tm] false ((T.main 1).map elpMainAng) (fun n => (T.pert n).map elpPertAng) td).bind fun V =>
        (elpCoord tm th [] false ((T.main 2).map elpMainAng) (fun n => (T.pert (n + 1)).map elpPertAng) V.2).bind fun U =>
          (elpCoord tm th [] true ((T.main 3).map elpMainDist) (fun n => (T.pert (n + 2)).map elpPertDist) U.2).bind fun r =>
            .ok (r.1, U.1, V.1)

/-! ### Time scales -/

/-- `delta_tdb_tt()` (`src/model/time_conversions.cpp` 58-68). -/
noncomputable def deltaTdbTt (tm : Expr ℝ) : Expr ℝ :=
  let M := addE (.dbl 6.239996) (mulE (.dbl 1.99096871e-7) tm)
  let Ee := addE M (mulE (.dbl 1.671e-2) (unaryE (.sin false) M))
  mulE (.dbl 1.657e-3) (unaryE (.sin false) Ee)

end Heyoka.Theory

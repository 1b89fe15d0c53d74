import Verif.Models.Frames
import Verif.Models.Geo
import Verif.Sh.Model
import Verif.Theory.Cart
import Verif.Expr.Diff
import Verif.Expr.SubsLemmas

/-!
# Dynamics of a satellite of the Earth

Model of `src/model/eo_dynamics.cpp` and of the public rotations of `src/model/frame_transformations.cpp`. The functions which read the EOP and
space weather data, the fraction of the day and the density of the atmosphere are parameters, as are the tables of the analytical theories and
of the gravity field. A threshold is `none` if it is not finite (for `-∞`, which the floor of the drag would accept, see `floorTh`).
-/

namespace Heyoka.EoDyn

open Heyoka.Sym Heyoka.Models Heyoka.Theory Heyoka.Sh

variable [FmtName ℝ]

/-- The data on which the dynamics depends: the functions of the time (`pm_x()`, `pm_y()`, `era()`, `dX()`, `dY()`, `f107()`, `f107a_center81()`,
`Ap_avg()`, `dayfrac()`), the tables of IAU2006, EGM2008, VSOP2013 and ELP2000, and `nrlmsise00_tn()`, as a function of the geodetic coordinates,
of `f107`, `f107a`, `ap` and of the fraction of the day. -/
structure EarthData where
  (pmX pmY era dX dY f107 f107a apAvg dayfrac : Expr ℝ → Expr ℝ)
  (TX TY TS : List (List IauRow))
  egm : List (ℝ × ℝ)
  vsop : Nat → Nat → List (List VsopRow)
  elp : ElpTables
  density : (Fin 3 → Expr ℝ) → Expr ℝ → Expr ℝ → Expr ℝ → Expr ℝ → Expr ℝ

/-- `sp` (`src/model/frame_transformations.cpp` 100). -/
noncomputable def spAngle : ℝ := -0.000047 * Real.pi / (180 * 3600)

/-- The quantities used by the rotations (`src/model/frame_transformations.cpp` 98-99, 142, 155-162). -/
noncomputable def eopAt (D : EarthData) (th : Option ℝ) (tm : Expr ℝ) : Res (Eop ℝ) :=
  (iau2006 D.TX D.TY D.TS tm th).bind fun r => .ok ⟨D.pmX tm, D.pmY tm, D.era tm, r.1, r.2.1, r.2.2, D.dX tm, D.dY tm, .dbl 0⟩

/-- `rot_icrs_itrs_impl()` (`src/model/frame_transformations.cpp` 294-305). -/
noncomputable def rotIcrsItrs (D : EarthData) (th : Option ℝ) (tm : Expr ℝ) (xyz : Fin 3 → Expr ℝ) : Res (Fin 3 → Expr ℝ) :=
  (eopAt D th tm).bind fun e => .ok (icrsItrs e (Real.cos spAngle) (Real.sin spAngle) xyz)

/-- `rot_itrs_icrs_impl()` (`src/model/frame_transformations.cpp` 228-239). -/
noncomputable def rotItrsIcrs (D : EarthData) (th : Option ℝ) (tm : Expr ℝ) (xyz : Fin 3 → Expr ℝ) : Res (Fin 3 → Expr ℝ) :=
  (eopAt D th tm).bind fun e => .ok (itrsIcrs e (Real.cos spAngle) (Real.sin spAngle) xyz)

/-! ### Constants -/

/-- `secs_in_day` (`src/model/eo_dynamics.cpp` 49). -/
noncomputable def secsInDay : ℝ := 86400
/-- `secs_in_cy` (`src/model/eo_dynamics.cpp` 50-51). -/
noncomputable def secsInCy : ℝ := secsInDay * 365.25 * 100
/-- `secs_in_mil` (`src/model/eo_dynamics.cpp` 52). -/
noncomputable def secsInMil : ℝ := secsInCy * 10
/-- `AU_km` (`src/model/eo_dynamics.cpp` 55). -/
noncomputable def auKm : ℝ := 149597870.7
/-- `sun_mu` (`src/model/eo_dynamics.cpp` 60). -/
noncomputable def sunMu : ℝ := 1.32712440041e20 / 1e9
/-- `moon_mu` (`src/model/eo_dynamics.cpp` 61). -/
noncomputable def moonMu : ℝ := 4.902800145e12 / 1e9
/-- `get_egm2008_mu() / 1e9` (`src/model/egm2008.cpp` 125-128, `src/model/eo_dynamics.cpp` 75, 298). -/
noncomputable def earthMu : ℝ := 3986004.415e8 / 1e9
/-- `get_egm2008_a() / 1e3` (`src/model/egm2008.cpp` 130-133, `src/model/eo_dynamics.cpp` 305). -/
noncomputable def earthA : ℝ := 6378136.3 / 1e3
/-- `a_earth / 1e3` (`include/heyoka/model/cart2geo.hpp` 31, `src/model/eo_dynamics.cpp` 204). -/
noncomputable def geoA : ℝ := 6378137 / 1e3
/-- The default of `ecc2` (`include/heyoka/model/cart2geo.hpp` 31-32, 40). -/
noncomputable def geoEcc2 : ℝ := 1 - 6356752.314245 * 6356752.314245 / 6378137 / 6378137

/-! ### Third bodies -/

/-- `pow(sum({x^2, y^2, z^2}), -1.5)` (`src/model/eo_dynamics.cpp` 128-129, 135-136). -/
noncomputable def rm3 (d : Fin 3 → Expr ℝ) : Expr ℝ := powE (norm2 d) (.dbl (-3 / 2))

/-- `-(sun_mu * x0 * r0_m3 + moon_mu * x1 * r1_m3)` (`src/model/eo_dynamics.cpp` 139-146). -/
noncomputable def pullE (d0 d1 : Fin 3 → Expr ℝ) (i : Fin 3) : Expr ℝ :=
  negE (addE (mulE (mulE (.dbl sunMu) (d0 i)) (rm3 d0)) (mulE (mulE (.dbl moonMu) (d1 i)) (rm3 d1)))

/-- `eo_dynamics_make_3rd_body_acc()` (`src/model/eo_dynamics.cpp` 68-154). -/
noncomputable def thirdBody (D : EarthData) (xyz : Fin 3 → Expr ℝ) (elpTh vsopTh : Option ℝ) : Res (Fin 3 → Expr ℝ) :=
  (vsopIcrf D.vsop 3 (divE timeE (.dbl secsInMil)) vsopTh).bind fun emb =>
    (elpFk5 D.elp (divE timeE (.dbl secsInCy)) elpTh).bind fun moon =>
      let muStar := earthMu / moonMu
      let p1E := fun i => negE (fk5Icrs moon i)
      let p0E := fun i => addE (mulE (emb.1 i) (.dbl auKm)) (divE (p1E i) (.dbl (1 + muStar)))
      let p0P := fun i => addE (p0E i) (xyz i)
      let p1P := fun i => addE (p1E i) (xyz i)
      .ok fun i => subE (pullE p0P p1P i) (pullE p0E p1E i)

/-! ### Drag -/

/-- `floored_iau2006_thresh` (`src/model/eo_dynamics.cpp` 184-187). The value `none` stands for NaN and for positive infinity: negative infinity is
floored like every negative number. -/
noncomputable def floorTh : Option ℝ → Option ℝ
  | none => none
  | some th => if th < 1e-2 then some 1e-2 else some th

/-- The names of the coordinates of the fixed point (`src/model/eo_dynamics.cpp` 207). -/
def crd0 : Fin 3 → String
  | 0 => "x0" | 1 => "y0" | 2 => "z0"

/-- `diff_tensors(..., {tm}).get_jacobian()` (`src/model/eo_dynamics.cpp` 216). Simplification: the entries of the Jacobian are given by `diff()`;
both have the value of the partial derivative (`diff_correct`, `diff_tensors_partials`). -/
noncomputable def jacTm (e : Fin 3 → Expr ℝ) : Res (Fin 3 → Expr ℝ) :=
  ((e 0).diff (.var "tm")).bind fun d0 => ((e 1).diff (.var "tm")).bind fun d1 => ((e 2).diff (.var "tm")).bind fun d2 => .ok (vec3 d0 d1 d2)

/-- The components before the last substitution (`src/model/eo_dynamics.cpp` 165-276). -/
noncomputable def dragTm (D : EarthData) (xyz vxyz : Fin 3 → Expr ℝ) (th : Option ℝ) (Cb : Expr ℝ) : Res (Fin 3 → Expr ℝ) :=
  let tm : Expr ℝ := .var "tm"
  let tmJcy := divE tm (.dbl secsInCy)
  (rotIcrsItrs D (floorTh th) tmJcy xyz).bind fun itrs =>
    (cart2geo itrs (some geoEcc2) (some geoA) 4).bind fun geo =>
      (rotItrsIcrs D (floorTh th) tmJcy fun i => .var (crd0 i)).bind fun p0 =>
        (jacTm p0).bind fun v0 =>
          let vAtm := fun i => (v0 i).replace (mapFind [(.var "x0", itrs 0), (.var "y0", itrs 1), (.var "z0", itrs 2)])
          let vrel := fun i => subE (vxyz i) (vAtm i)
          let tmAtm := D.dayfrac (divE tm (.dbl secsInDay))
          let f107 := D.f107 (divE (subE tm (.dbl secsInDay)) (.dbl secsInCy))
          let f107a := D.f107a (divE tm (.dbl secsInCy))
          let ap := D.apAvg (divE tm (.dbl secsInCy))
          let rho := mulE (D.density geo f107 f107a ap tmAtm) (.dbl 1e9)
          let vr := sqrtE (sumE [sq (vrel 0), sq (vrel 1), sq (vrel 2), .dbl (1e-8 * 1e-8)])
          let factor := prodE [.dbl (-1 / 2), rho, vr, Cb, .dbl 1e-6]
          .ok fun i => mulE factor (vrel i)

/-- `eo_dynamics_make_drag_acc()` (`src/model/eo_dynamics.cpp` 162-283). -/
noncomputable def dragAcc (D : EarthData) (xyz vxyz : Fin 3 → Expr ℝ) (th : Option ℝ) (Cb : Expr ℝ) : Res (Fin 3 → Expr ℝ) :=
  (dragTm D xyz vxyz th Cb).bind fun a => .ok fun i => (a i).replace (mapFind [(.var "tm", timeE)])

/-! ### The equations -/

/-- `dyn[3].second += ...` and so on (`src/model/eo_dynamics.cpp` 336-338, 348-350). -/
noncomputable def addAcc (dyn : List (Expr ℝ × Expr ℝ)) (f : Fin 3 → Expr ℝ) : Res (List (Expr ℝ × Expr ℝ)) :=
  match dyn with
  | [a, b, c, x, y, z] => .ok [a, b, c, (x.1, addE x.2 (f 0)), (y.1, addE y.2 (f 1)), (z.1, addE z.2 (f 2))]
  | _ => .ub

/-- The gravity of the Earth (`src/model/eo_dynamics.cpp` 300-327). -/
noncomputable def gravDyn (D : EarthData) (deg ord : Nat) (th : Option ℝ) : Res (List (Expr ℝ × Expr ℝ)) :=
  if deg = 0 ∧ ord = 0 then fixedCentres (.dbl earthMu) [.dbl 1] [.dbl 0, .dbl 0, .dbl 0]
  else
    let tmJcy := divE timeE (.dbl secsInCy)
    (rotIcrsItrs D th tmJcy fun i => .var (crd i)).bind fun itrs =>
      (egmAcc Real.sqrt D.egm itrs deg ord (.dbl earthMu) (.dbl earthA)).bind fun acc =>
        (rotItrsIcrs D th tmJcy acc).bind fun a => .ok (motion6 a)

/-- The drag is added if the ballistic coefficient is given (`src/model/eo_dynamics.cpp` 330-339). -/
noncomputable def withDrag (D : EarthData) (th : Option ℝ) (dyn : List (Expr ℝ × Expr ℝ)) : Option (Expr ℝ) → Res (List (Expr ℝ × Expr ℝ))
  | none => .ok dyn
  | some Cb => (dragAcc D (fun i => .var (crd i)) (fun i => .var (vel i)) th Cb).bind fun f => addAcc dyn f

/-- The third bodies are added if both thresholds are given (`src/model/eo_dynamics.cpp` 341-351). -/
noncomputable def withBodies (D : EarthData) (dyn : List (Expr ℝ × Expr ℝ)) : Option (Option ℝ) → Option (Option ℝ) → Res (List (Expr ℝ × Expr ℝ))
  | some e, some w => (thirdBody D (fun i => .var (crd i)) e w).bind fun f => addAcc dyn f
  | _, _ => .ok dyn

/-- `eo_dynamics_impl()` and `make_eo_dynamics()` (`src/model/eo_dynamics.cpp` 285-372). -/
noncomputable def eoDynamics (D : EarthData) (deg ord : Nat) (th : Option ℝ) (Cb : Option (Expr ℝ)) (elpTh vsopTh : Option (Option ℝ)) :
    Res (List (Expr ℝ × Expr ℝ)) :=
  if elpTh.isSome ≠ vsopTh.isSome then .throw
  else (gravDyn D deg ord th).bind fun dyn => (withDrag D th dyn Cb).bind fun dyn => withBodies D dyn elpTh vsopTh

end Heyoka.EoDyn

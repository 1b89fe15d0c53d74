import Verif.Models.EoDyn
import Verif.Props.Frames
import Verif.Props.Geo
import Verif.Props.ShGravity
import Verif.Props.Cart
import Verif.Props.Models
import Verif.Expr.Reg
import Verif.Mech.Build

/-!
# C64: the dynamics of a satellite of the Earth
-/

set_option linter.unusedSectionVars false

namespace Heyoka.EoDyn

open Heyoka.Sym Heyoka.Models Heyoka.Theory Heyoka.Sh Matrix Filter Topology

/-! ### Specification -/

/-- What is assumed of the data: during the times in `T` (Julian centuries) the functions of the Earth orientation parameters, of the space weather
and of the density return expressions with the values `xp`, `yp`, ..., `rho`; the tables have their sizes. -/
structure Earth [DFunc] (D : EarthData) where
  T : Set ℝ
  (xp yp era dx dy f107 f107a ap day : ℝ → ℝ)
  rho : (h lat lon f107 f107a ap day : ℝ) → ℝ
  hxp : ∀ v e τ, τ ∈ T → e.eval v = some τ → (D.pmX e).eval v = some (xp τ)
  hyp : ∀ v e τ, τ ∈ T → e.eval v = some τ → (D.pmY e).eval v = some (yp τ)
  hera : ∀ v e τ, τ ∈ T → e.eval v = some τ → (D.era e).eval v = some (era τ)
  hdx : ∀ v e τ, τ ∈ T → e.eval v = some τ → (D.dX e).eval v = some (dx τ)
  hdy : ∀ v e τ, τ ∈ T → e.eval v = some τ → (D.dY e).eval v = some (dy τ)
  hf107 : ∀ v e τ, τ ∈ T → e.eval v = some τ → (D.f107 e).eval v = some (f107 τ)
  hf107a : ∀ v e τ, τ ∈ T → e.eval v = some τ → (D.f107a e).eval v = some (f107a τ)
  hap : ∀ v e τ, τ ∈ T → e.eval v = some τ → (D.apAvg e).eval v = some (ap τ)
  hday : ∀ v e d, d / 36525 ∈ T → e.eval v = some d → (D.dayfrac e).eval v = some (day d)
  hrho : ∀ v geo f fa a d (h lat lon F Fa A d' : ℝ), VVal v geo ![h, lat, lon] → f.eval v = some F → fa.eval v = some Fa → a.eval v = some A →
    d.eval v = some d' → (D.density geo f fa a d).eval v = some (rho h lat lon F Fa A d')
  hX : ∀ rows ∈ D.TX, ∀ r ∈ rows, Small r.idx
  hY : ∀ rows ∈ D.TY, ∀ r ∈ rows, Small r.idx
  hS : ∀ rows ∈ D.TS, ∀ r ∈ rows, Small r.idx
  hegm : D.egm.length = 11473
  help : D.elp.Ok

section
variable [DFunc] {D : EarthData}

/-- The matrix of the transformation from the terrestrial frame (ITRS) to the celestial frame (GCRS) at the time `τ` in Julian centuries, with the
series of IAU2006 truncated at `th`. -/
noncomputable def Earth.rot (E : Earth D) (th τ : ℝ) : Matrix (Fin 3) (Fin 3) ℝ :=
  let X := iauCoord polyX D.TX th τ
  let Y := iauCoord polyY D.TY th τ
  let s := poly polyS τ * uas2rad + poly (D.TS.map fun rows => iauSeries (iauArgVals τ) th rows * uas2rad) τ - X * Y / 2
  terrToCel (E.xp τ) (E.yp τ) spAngle (E.era τ) (X + E.dx τ) (Y + E.dy τ) (s - (X * E.dy τ + Y * E.dx τ + E.dx τ * E.dy τ) / 2)

/-- The geopotential at the point `r` of the celestial frame: the series of EGM2008 at the coordinates which the point has in the terrestrial
frame. -/
noncomputable def Earth.geopot (E : Earth D) (deg ord : ℕ) (th τ : ℝ) (r : Fin 3 → ℝ) : ℝ :=
  let q := (E.rot th τ)ᵀ *ᵥ r
  potential earthMu earthA (fun i j => (egmC D.egm i j).1) (fun i j => (egmC D.egm i j).2) deg ord (q 0) (q 1) (q 2)

/-- The acceleration due to the gravity of the Earth at the time `t` in seconds: that of a point mass if degree and order are zero, otherwise the
gradient of the geopotential. -/
def Earth.GravAt (E : Earth D) (deg ord : ℕ) (th t : ℝ) (r g : Fin 3 → ℝ) : Prop :=
  (deg = 0 ∧ ord = 0 → ∀ a, g a = -(earthMu * r a / dist3 r 0 ^ 3)) ∧
  (¬ (deg = 0 ∧ ord = 0) → ∀ k, HasDerivAt (fun s => E.geopot deg ord th (t / secsInCy) (Function.update r k s)) (g k) (r k))

/-- `w` is the velocity in the celestial frame of the point which is at rest in the terrestrial frame and is at `r` (up to the deviation of the
transformation from a rotation) at the time `t`. -/
def Earth.Wind (E : Earth D) (th t : ℝ) (r w : Fin 3 → ℝ) : Prop :=
  ∀ i, HasDerivAt (fun s => (E.rot th (s / secsInCy) *ᵥ ((E.rot th (t / secsInCy))ᵀ *ᵥ r)) i) (w i) t

/-- The acceleration due to the drag for the ballistic coefficient `cb`, velocities in km/s: that of the flow with the relative velocity `u - w`, where
the density is taken at the longitude, the latitude `Φ` (with a bound on the difference to the latitude `φ`) and the height `H`, computed from the
latitude of the iteration before, and the F10.7 index one day before. -/
def Earth.DragAt (E : Earth D) (th t : ℝ) (r u : Fin 3 → ℝ) (φ lam cb : ℝ) (d : Fin 3 → ℝ) : Prop :=
  ∃ (w : Fin 3 → ℝ) (H Φ Φ' : ℝ), E.Wind th t r w ∧
    |Φ - φ| ≤ (geoEcc2 / (1 - 2 * geoEcc2)) ^ 4 * (geoEcc2 / (1 - geoEcc2)) ∧ |Φ' - φ| ≤ (geoEcc2 / (1 - 2 * geoEcc2)) ^ 3 * (geoEcc2 / (1 - geoEcc2)) ∧
    H = (let q := (E.rot th (t / secsInCy))ᵀ *ᵥ r
      Real.sqrt (q 0 ^ 2 + q 1 ^ 2) / Real.cos Φ' - geoA / Real.sqrt (1 - geoEcc2 * Real.sin Φ' ^ 2)) ∧
    ∀ i, d i = -1 / 2 * (E.rho H Φ lam (E.f107 ((t - 86400) / secsInCy)) (E.f107a (t / secsInCy)) (E.ap (t / secsInCy)) (E.day (t / 86400)) * 1e9) *
      Real.sqrt ((u 0 - w 0) ^ 2 + (u 1 - w 1) ^ 2 + (u 2 - w 2) ^ 2 + 1e-16) * cb * 1e-6 * (u i - w i)

/-- The position of the Moon with respect to the Earth, in the ICRF: the coordinates of ELP2000 in the frame of the FK5, rotated. -/
noncomputable def Earth.moon (_ : Earth D) (th τ : ℝ) : Fin 3 → ℝ :=
  (Matrix.of fun i j => (fk5Mat i j : ℝ)) *ᵥ (elpFk5M *ᵥ (laskarRot (poly laskarP τ) (poly laskarQ τ) *ᵥ
    spherical (elpDistVal D.elp th τ) (elpLatVal D.elp th τ) (elpLonVal D.elp th τ)))

/-- `s` (astronomical units) is the position of the barycentre of the Earth and the Moon with respect to the Sun, in the ICRF: that on the ellipse with
the elements of VSOP2013 at the time `x` in thousands of years. -/
def Earth.Emb (_ : Earth D) (th x : ℝ) (s : Fin 3 → ℝ) : Prop :=
  ∃ (e i Ω ϖ : ℝ) (A : ℝ → ℝ), Elements (vsopElement D.vsop 3 th x 1) (vsopElement D.vsop 3 th x 3) (vsopElement D.vsop 3 th x 4)
      (vsopElement D.vsop 3 th x 5) (vsopElement D.vsop 3 th x 6) e i Ω ϖ ∧
    (∀ s, A s - e * Real.sin (A s) = vsopElement D.vsop 3 th x 2 + Real.sqrt (vsopMu 3 / vsopElement D.vsop 3 th x 1 ^ 3) * s - ϖ) ∧
    s = (R3 (-icrfPhi) * R1 (-icrfEps)) *ᵥ (orbitRot i Ω ϖ *ᵥ orbitPos (vsopElement D.vsop 3 th x 1) e (A 0))

/-- The acceleration with respect to the centre of the Earth due to a body at `s`: that of the satellite at `r` minus that of the Earth. -/
noncomputable def tidal (μ : ℝ) (s r : Fin 3 → ℝ) : Fin 3 → ℝ := fun a => μ * (s a - r a) / dist3 r s ^ 3 - μ * s a / dist3 0 s ^ 3

/-- The acceleration due to the Sun and the Moon: the barycentre of the Earth and the Moon is at `auKm • emb` from the Sun. -/
def Earth.BodiesAt (E : Earth D) (elpTh t : ℝ) (emb r b : Fin 3 → ℝ) : Prop :=
  ∃ sun : Fin 3 → ℝ, (∀ a, moonMu * E.moon elpTh (t / secsInCy) a / (earthMu + moonMu) - sun a = auKm * emb a) ∧
    ∀ a, b a = tidal sunMu sun r a + tidal moonMu (E.moon elpTh (t / secsInCy)) r a

end

/-! ### Lemmas -/

section
variable [DFunc] {D : EarthData} {v : Env ℝ}

theorem secsInCy_pos : 0 < secsInCy := by norm_num [secsInCy, secsInDay]
theorem secsInMil_pos : 0 < secsInMil := by norm_num [secsInMil, secsInCy, secsInDay]

theorem ev_time : (timeE : Expr ℝ).eval v = some v.time := by simp [timeE, Expr.eval]

theorem eop_val (E : Earth D) {tm : Expr ℝ} {τ th : ℝ} (hτ : τ ∈ E.T) (ht : tm.eval v = some τ) (hth : 0 ≤ th) :
    ∃ e, eopAt D (some th) tm = .ok e ∧ EopVal v e (E.xp τ) (E.yp τ) (E.era τ) (iauCoord polyX D.TX th τ) (iauCoord polyY D.TY th τ)
      (poly polyS τ * uas2rad + poly (D.TS.map fun rows => iauSeries (iauArgVals τ) th rows * uas2rad) τ -
        iauCoord polyX D.TX th τ * iauCoord polyY D.TY th τ / 2) (E.dx τ) (E.dy τ) 0 := by
  obtain ⟨X, Y, S, h, hX, hY, hS⟩ := iau2006_value E.hX E.hY E.hS ht hth
  refine ⟨_, by rw [eopAt, h]; rfl, ?_⟩
  exact ⟨E.hxp _ _ _ hτ ht, E.hyp _ _ _ hτ ht, E.hera _ _ _ hτ ht, hX, hY, hS, E.hdx _ _ _ hτ ht, E.hdy _ _ _ hτ ht, Expr.eval_dbl _ _⟩

theorem rotIcrsItrs_val (E : Earth D) {tm : Expr ℝ} {τ th : ℝ} (hτ : τ ∈ E.T) (ht : tm.eval v = some τ) (hth : 0 ≤ th) {xyz : Fin 3 → Expr ℝ}
    {p : Fin 3 → ℝ} (hp : VVal v xyz p) : ∃ q, rotIcrsItrs D (some th) tm xyz = .ok q ∧ VVal v q ((E.rot th τ)ᵀ *ᵥ p) := by
  obtain ⟨e, h1, h2⟩ := eop_val E hτ ht hth
  exact ⟨_, by rw [rotIcrsItrs, h1]; rfl, icrs_itrs_value spAngle h2 hp⟩

theorem rotItrsIcrs_val (E : Earth D) {tm : Expr ℝ} {τ th : ℝ} (hτ : τ ∈ E.T) (ht : tm.eval v = some τ) (hth : 0 ≤ th) {xyz : Fin 3 → Expr ℝ}
    {p : Fin 3 → ℝ} (hp : VVal v xyz p) : ∃ q, rotItrsIcrs D (some th) tm xyz = .ok q ∧ VVal v q (E.rot th τ *ᵥ p) := by
  obtain ⟨e, h1, h2⟩ := eop_val E hτ ht hth
  exact ⟨_, by rw [rotItrsIcrs, h1]; rfl, itrs_icrs_value spAngle h2 hp⟩

theorem terrToCel_ne {xp yp sp era X Y s : ℝ} {r : Fin 3 → ℝ} (hr : r ≠ 0) : (terrToCel xp yp sp era X Y s)ᵀ *ᵥ r ≠ 0 := by
  intro h
  have hB : (R3 s * R3 (-era) * (R3 (-sp) * R2 xp * R1 yp))ᵀ * (R3 s * R3 (-era) * (R3 (-sp) * R2 xp * R1 yp)) = 1 :=
    orth_mul (orth_mul (R3_orth _) (R3_orth _)) (orth_mul (orth_mul (R3_orth _) (R2_orth _)) (R1_orth _))
  have e1 : terrToCel xp yp sp era X Y s = PN X Y * (R3 s * R3 (-era) * (R3 (-sp) * R2 xp * R1 yp)) := by simp only [terrToCel, Matrix.mul_assoc]
  rw [e1, transpose_mul, ← mulVec_mulVec] at h
  have h2 : (PN X Y)ᵀ *ᵥ r = 0 := by
    have := congrArg (fun q => (R3 s * R3 (-era) * (R3 (-sp) * R2 xp * R1 yp)) *ᵥ q) h
    simp only [mulVec_mulVec, mulVec_zero] at this
    rwa [← Matrix.mul_assoc, orth_comm hB, Matrix.one_mul] at this
  have g : PN X Y * (PN X Y)ᵀ = 1 + ((X ^ 2 + Y ^ 2) ^ 2 / 8 + (X ^ 2 + Y ^ 2) ^ 3 / 64) • pnDev X Y := by
    ext i j
    fin_cases i <;> fin_cases j <;> simp [PN, pnDev, Matrix.mul_apply, Fin.sum_univ_three] <;> ring
  have h3 : (1 + ((X ^ 2 + Y ^ 2) ^ 2 / 8 + (X ^ 2 + Y ^ 2) ^ 3 / 64) • pnDev X Y) *ᵥ r = 0 := by
    rw [← g, ← mulVec_mulVec, h2, mulVec_zero]
  have h4 : r ⬝ᵥ ((1 + ((X ^ 2 + Y ^ 2) ^ 2 / 8 + (X ^ 2 + Y ^ 2) ^ 3 / 64) • pnDev X Y) *ᵥ r) = 0 := by rw [h3, dotProduct_zero]
  have h5 : r 0 ^ 2 + r 1 ^ 2 + r 2 ^ 2 + ((X ^ 2 + Y ^ 2) ^ 2 / 8 + (X ^ 2 + Y ^ 2) ^ 3 / 64) *
      ((X * r 0 + Y * r 1) ^ 2 + (X ^ 2 + Y ^ 2) * r 2 ^ 2) = 0 := by
    rw [← h4, add_mulVec, one_mulVec, smul_mulVec]
    simp [pnDev, dotProduct, mulVec, Fin.sum_univ_three]
    ring
  have h6 : 0 ≤ ((X ^ 2 + Y ^ 2) ^ 2 / 8 + (X ^ 2 + Y ^ 2) ^ 3 / 64) * ((X * r 0 + Y * r 1) ^ 2 + (X ^ 2 + Y ^ 2) * r 2 ^ 2) := by positivity
  apply hr
  ext i
  fin_cases i
  · simp; nlinarith [sq_nonneg (r 0), sq_nonneg (r 1), sq_nonneg (r 2)]
  · simp; nlinarith [sq_nonneg (r 0), sq_nonneg (r 1), sq_nonneg (r 2)]
  · simp; nlinarith [sq_nonneg (r 0), sq_nonneg (r 1), sq_nonneg (r 2)]

theorem Earth.rot_ne (E : Earth D) (th τ : ℝ) {r : Fin 3 → ℝ} (hr : r ≠ 0) : (E.rot th τ)ᵀ *ᵥ r ≠ 0 := terrToCel_ne hr

theorem len2_pos {q : Fin 3 → ℝ} (h : q ≠ 0) : 0 < q 0 ^ 2 + q 1 ^ 2 + q 2 ^ 2 := by
  obtain ⟨a, ha⟩ := Function.ne_iff.1 h
  have ha' : q a ≠ 0 := ha
  fin_cases a <;> simp at ha' <;> positivity

theorem egmAcc_val {tbl : List (ℝ × ℝ)} (ht : tbl.length = 11473) {xyz : Fin 3 → Expr ℝ} {n m : ℕ} {mue ae : Expr ℝ} {q : Fin 3 → ℝ} {mu a : ℝ}
    (hn : n ≤ 150) (hm : m ≤ n) (hq : VVal v xyz q) (h0 : q ≠ 0) (hmu : mue.eval v = some mu) (ha : ae.eval v = some a) (ha0 : a ≠ 0) :
    ∃ g, egmAcc Real.sqrt tbl xyz n m mue ae = .ok g ∧ VVal v g
      (accValue mu a (fun i j => (egmC tbl i j).1) (fun i j => (egmC tbl i j).2) n m (q 0) (q 1) (q 2)) := by
  have hchk : egmChecks n m = .ok () := by rw [egmChecks, egmMaxDegree, if_neg (by omega), if_neg (by omega)]
  have hcs : ∀ i j, i ≤ n → j ≤ i → j ≤ m → ∃ c, egmGet tbl i j = .ok c ∧ ∀ _ : Unit, c.1.eval v = some (egmC tbl i j).1 ∧
      c.2.eval v = some (egmC tbl i j).2 := fun i j hi hj _ => ⟨_, egmGet_ok ht (by omega) hj, fun _ => ⟨by simp, by simp⟩⟩
  obtain ⟨g, h3, h4⟩ := shAccImpl_value (Ω := Unit) (v := fun _ => v) (x := fun _ => q 0) (y := fun _ => q 1) (z := fun _ => q 2)
    (mu := fun _ => mu) (a := fun _ => a) (C := fun _ i j => (egmC tbl i j).1) (S := fun _ i j => (egmC tbl i j).2)
    (xyz := xyz) (ae := ae) (mue := mue) (cs := egmGet tbl) (n := n) (m := m) (by unfold u32max; omega) hm (fun _ => len2_pos h0) (fun _ => hq 0)
    (fun _ => hq 1) (fun _ => hq 2) (fun _ => ha) (fun _ => ha0) (fun _ => hmu) hcs
  exact ⟨g, by rw [egmAcc, hchk, Res.bind_ok, h3], fun k => h4 () k⟩

theorem geopot_deriv (E : Earth D) (deg ord : ℕ) (th τ : ℝ) {r : Fin 3 → ℝ} (hr : r ≠ 0) (k : Fin 3) :
    HasDerivAt (fun s => E.geopot deg ord th τ (Function.update r k s))
      ((E.rot th τ *ᵥ (accValue earthMu earthA (fun i j => (egmC D.egm i j).1) (fun i j => (egmC D.egm i j).2) deg ord
        (((E.rot th τ)ᵀ *ᵥ r) 0) (((E.rot th τ)ᵀ *ᵥ r) 1) (((E.rot th τ)ᵀ *ᵥ r) 2))) k) (r k) := by
  have hc : ∀ i, HasDerivAt (fun s => ((E.rot th τ)ᵀ *ᵥ Function.update r k s) i) (E.rot th τ k i) (r k) := by
    intro i
    have : (fun s => ((E.rot th τ)ᵀ *ᵥ Function.update r k s) i) = fun s => ((E.rot th τ)ᵀ *ᵥ r) i + E.rot th τ k i * (s - r k) := by
      funext s
      simp only [mulVec, dotProduct, Fin.sum_univ_three, transpose_apply]
      fin_cases k <;> simp [Function.update] <;> ring
    rw [this]
    simpa using (((hasDerivAt_id (r k)).sub_const (r k)).const_mul (E.rot th τ k i)).const_add (((E.rot th τ)ᵀ *ᵥ r) i)
  have h0 := len2_pos (E.rot_ne th τ hr)
  have hu : Function.update r k (r k) = r := Function.update_eq_self k r
  have h := hasDerivAt_potential (mu := earthMu) (a := earthA) (by norm_num [earthA]) (fun i j => (egmC D.egm i j).1) (fun i j => (egmC D.egm i j).2)
    deg ord (hc 0) (hc 1) (hc 2) (by simpa only [hu] using h0)
  refine HasDerivAt.congr_deriv h ?_
  simp only [hu, mulVec, dotProduct, Fin.sum_univ_three]

theorem crd_val (v : Env ℝ) : VVal v (fun i => .var (crd i)) (pos v) := fun i => by simp [pos]
theorem vel_val (v : Env ℝ) : VVal v (fun i => .var (vel i)) (vlc v) := fun i => by simp [vlc]

variable [FmtName ℝ]

/-- The gravity of the Earth. -/
theorem grav_val (E : Earth D) {deg ord : ℕ} {th : Option ℝ} {x : ℝ} (hth : ¬ (deg = 0 ∧ ord = 0) → th = some x ∧ 0 ≤ x ∧ v.time / secsInCy ∈ E.T)
    (hd : deg ≤ 150) (ho : ord ≤ deg) (hr : pos v ≠ 0) :
    ∃ acc g, gravDyn D deg ord th = .ok (motion6 acc) ∧ VVal v acc g ∧ E.GravAt deg ord x v.time (pos v) g := by
  by_cases h : deg = 0 ∧ ord = 0
  · have hc : Centres v (.dbl earthMu) [.dbl 1] [.dbl 0, .dbl 0, .dbl 0] earthMu (fun _ => 1) (fun _ => 0) := by
      refine ⟨by simp, ?_, ?_⟩
      · intro i hi
        simp at hi
        subst hi
        simp
      · intro i hi a
        simp at hi
        subst hi
        fin_cases a <;> simp
    refine ⟨_, _, by rw [gravDyn, if_pos h]; rfl, fun a => fcAcc_eval hc (fun i _ => hr.symm) a, fun _ a => ?_, fun hc => absurd h hc⟩
    simp [gravity]
    ring
  · obtain ⟨rfl, hx, hT⟩ := hth h
    have htm := eval_divE (ev_time (v := v)) (Expr.eval_dbl v secsInCy) secsInCy_pos.ne'
    obtain ⟨q, h1, h2⟩ := rotIcrsItrs_val E hT htm hx (crd_val v)
    obtain ⟨g, h3, h4⟩ := egmAcc_val E.hegm hd ho h2 (E.rot_ne x _ hr) (Expr.eval_dbl v earthMu) (Expr.eval_dbl v earthA) (by norm_num [earthA])
    obtain ⟨a, h5, h6⟩ := rotItrsIcrs_val E hT htm hx h4
    refine ⟨a, _, ?_, h6, fun hc => absurd hc h, fun _ k => geopot_deriv E deg ord x _ hr k⟩
    simp only [gravDyn, if_neg h, h1, Res.bind_ok, h3, h5]

/-! ### Third bodies -/

theorem pull_val {d0 d1 : Fin 3 → Expr ℝ} {p0 p1 : Fin 3 → ℝ} (h0 : VVal v d0 p0) (h1 : VVal v d1 p1) (n0 : p0 ≠ 0) (n1 : p1 ≠ 0) (i : Fin 3) :
    (pullE d0 d1 i).eval v = some (-(sunMu * p0 i / Real.sqrt (∑ a, p0 a ^ 2) ^ 3 + moonMu * p1 i / Real.sqrt (∑ a, p1 a ^ 2) ^ 3)) := by
  have q : ∀ {p : Fin 3 → ℝ}, p ≠ 0 → 0 < ∑ a, p a ^ 2 := fun {p} hp => by
    have := len2_pos hp
    rw [Fin.sum_univ_three]
    exact this
  have r : ∀ {d : Fin 3 → Expr ℝ} {p : Fin 3 → ℝ}, VVal v d p → p ≠ 0 → (rm3 d).eval v = some (1 / Real.sqrt (∑ a, p a ^ 2) ^ 3) := fun {d p} hd hp => by
    rw [rm3, ev_rpow (-3 / 2) (ev_norm2 hd) (q hp), rpow_m32 (q hp)]
  refine (ev_neg (ev_add (eval_mulE (eval_mulE (Expr.eval_dbl v sunMu) (h0 i)) (r h0 n0))
    (eval_mulE (eval_mulE (Expr.eval_dbl v moonMu) (h1 i)) (r h1 n1)))).trans (congrArg some ?_)
  ring

/-- The third bodies. -/
theorem bodies_val (E : Earth D) {et wt : ℝ} (he : 0 ≤ et) (hw : 0 ≤ wt) (h100 : |v.time / secsInCy| ≤ 100) {emb sun : Fin 3 → ℝ}
    (hemb : E.Emb wt (v.time / secsInMil) emb)
    (hsun : ∀ a, moonMu * E.moon et (v.time / secsInCy) a / (earthMu + moonMu) - sun a = auKm * emb a)
    (n1 : sun ≠ pos v) (n2 : sun ≠ 0) (n3 : E.moon et (v.time / secsInCy) ≠ pos v) (n4 : E.moon et (v.time / secsInCy) ≠ 0) :
    ∃ f, thirdBody D (fun i => .var (crd i)) (some et) (some wt) = .ok f ∧
      VVal v f (fun a => tidal sunMu sun (pos v) a + tidal moonMu (E.moon et (v.time / secsInCy)) (pos v) a) := by
  obtain ⟨e, i, Ω, ϖ, A, H, hA, rfl⟩ := hemb
  have ht1 := eval_divE (ev_time (v := v)) (Expr.eval_dbl v secsInMil) secsInMil_pos.ne'
  have ht2 := eval_divE (ev_time (v := v)) (Expr.eval_dbl v secsInCy) secsInCy_pos.ne'
  obtain ⟨P, V, c1, c2, c3, -⟩ := vsop_cartesian_value D.vsop (pl := 3) (by norm_num) ht1 hw H hA
  obtain ⟨P', V', c4, c5, -⟩ := vsop_icrf_value D.vsop c1 c2 c3
  obtain ⟨m, z, c6, c7, rfl, -⟩ := elp_fk5_value E.help ht2 he h100
  have hm : VVal v (fk5Icrs m) (E.moon et (v.time / secsInCy)) := ev_rotM (fun i j => Expr.eval_dbl _ _) c7
  have hmu : (1 : ℝ) + earthMu / moonMu ≠ 0 := by norm_num [earthMu, moonMu]
  have p1 : VVal v (fun i => negE (fk5Icrs m i)) (fun a => -(E.moon et (v.time / secsInCy) a)) := fun i => ev_neg (hm i)
  have p0 : VVal v (fun i => addE (mulE (P' i) (.dbl auKm)) (divE (negE (fk5Icrs m i)) (.dbl (1 + earthMu / moonMu)))) (fun a => -(sun a)) := fun i => by
    refine (ev_add (eval_mulE (c5 i) (Expr.eval_dbl v auKm)) (eval_divE (p1 i) (Expr.eval_dbl v _) hmu)).trans (congrArg some ?_)
    have h := hsun i
    have e1 : -(E.moon et (v.time / secsInCy) i) / (1 + earthMu / moonMu) = -(moonMu * E.moon et (v.time / secsInCy) i / (earthMu + moonMu)) := by
      have a1 : (moonMu : ℝ) ≠ 0 := by norm_num [moonMu]
      have a2 : (earthMu : ℝ) + moonMu ≠ 0 := by norm_num [earthMu, moonMu]
      have a3 : (moonMu : ℝ) + earthMu ≠ 0 := by norm_num [earthMu, moonMu]
      field_simp
      ring
    rw [e1]
    linarith
  have p0' : VVal v (fun i => addE (addE (mulE (P' i) (.dbl auKm)) (divE (negE (fk5Icrs m i)) (.dbl (1 + earthMu / moonMu)))) (.var (crd i)))
      (fun a => -(sun a) + pos v a) := fun i => ev_add (p0 i) (crd_val v i)
  have p1' : VVal v (fun i => addE (negE (fk5Icrs m i)) (.var (crd i))) (fun a => -(E.moon et (v.time / secsInCy) a) + pos v a) := fun i =>
    ev_add (p1 i) (crd_val v i)
  have ne : ∀ {s r : Fin 3 → ℝ}, s ≠ r → (fun a => -(s a) + r a) ≠ 0 := fun {s r} h hc => h (by
    ext a
    have := congrFun hc a
    simp at this
    linarith)
  have ne0 : ∀ {s : Fin 3 → ℝ}, s ≠ 0 → (fun a => -(s a)) ≠ 0 := fun {s} h hc => h (by
    ext a
    have := congrFun hc a
    simpa using this)
  refine ⟨_, by rw [thirdBody, c4, Res.bind_ok, c6, Res.bind_ok], fun a => ?_⟩
  refine (ev_sub (pull_val p0' p1' (ne n1) (ne n3) a) (pull_val p0 p1 (ne0 n2) (ne0 n4) a)).trans (congrArg some ?_)
  have d1 : ∀ s r : Fin 3 → ℝ, Real.sqrt (∑ a, (-(s a) + r a) ^ 2) = dist3 r s := fun s r => by
    rw [dist3]
    congr 1
    exact Finset.sum_congr rfl fun a _ => by ring
  have d2 : ∀ s : Fin 3 → ℝ, Real.sqrt (∑ a, (-(s a)) ^ 2) = dist3 0 s := fun s => by
    rw [dist3]
    congr 1
    exact Finset.sum_congr rfl fun a _ => by simp
  simp only [d1, d2, tidal]
  ring

/-! ### Drag -/

/-- A substitution of variables. -/
theorem eval_replace_vars {m : List (Expr ℝ × Expr ℝ)} {w : Env ℝ} (hk : ∀ p ∈ m, ∃ s, p.1 = .var s)
    (hs : ∀ s, ((mapFind m (.var s)).getD (.var s)).eval v = some (w.var s)) (hp : w.par = v.par) (ht : v.time = w.time) (e : Expr ℝ) :
    (e.replace (mapFind m)).eval v = e.eval w := by
  have hn : ∀ e : Expr ℝ, (∀ s, (Expr.var s).beq e = false) → mapFind m e = none := by
    intro e he
    cases h : mapFind m e with
    | none => rfl
    | some r =>
      obtain ⟨k, h1, h2⟩ := mapFind_some h
      obtain ⟨s, hs⟩ := hk _ h1
      simp only at hs
      rw [hs, he s] at h2
      cases h2
  induction e using Expr.ind with
  | num n => rw [Expr.replace, hn _ (fun s => by simp [Expr.beq])]; simp
  | var s => rw [Expr.replace, hs s]; simp
  | par i => rw [Expr.replace, hn _ (fun s => by simp [Expr.beq])]; simp [hp]
  | fn f args ih =>
    rw [Expr.replace, Expr.replaceL_eq_map, hn _ (fun s => by simp [Expr.beq]), Option.getD_none]
    exact Expr.eval_fn_congr ht f ih

/-- The environment with the time in the variable `tm`. -/
def tmEnv (v : Env ℝ) : Env ℝ := v.set (.var "tm") v.time

/-- The environment with the coordinates of a point in the variables `x0`, `y0` and `z0`. -/
def crdEnv (v : Env ℝ) (q : Fin 3 → ℝ) : Env ℝ :=
  ⟨fun s => if s = "x0" then q 0 else if s = "y0" then q 1 else if s = "z0" then q 2 else v.var s, v.par, v.time⟩

theorem eval_tm (e : Expr ℝ) (v : Env ℝ) : (e.replace (mapFind [(.var "tm", timeE)])).eval v = e.eval (tmEnv v) := by
  refine eval_replace_vars (v := v) (w := tmEnv v) (m := [(.var "tm", timeE)]) (by simp) (fun s => ?_) rfl rfl e
  rw [Heyoka.Mech.mapFind_one]
  by_cases h : s = "tm"
  · subst h
    simp [Expr.beq, timeE, Expr.eval, tmEnv, Env.set]
  · have : (Expr.var "tm" : Expr ℝ).beq (.var s) = false := by simp [Expr.beq, Ne.symm h]
    rw [this]
    simp [tmEnv, Env.set, h]

theorem eval_crd {a : Fin 3 → Expr ℝ} {q : Fin 3 → ℝ} (ha : VVal v a q) (e : Expr ℝ) :
    (e.replace (mapFind [(.var "x0", a 0), (.var "y0", a 1), (.var "z0", a 2)])).eval v = e.eval (crdEnv v q) := by
  refine eval_replace_vars (v := v) (w := crdEnv v q) (m := [(.var "x0", a 0), (.var "y0", a 1), (.var "z0", a 2)]) (by simp) (fun s => ?_) rfl rfl e
  cases h : mapFind [(.var "x0", a 0), (.var "y0", a 1), (.var "z0", a 2)] (.var s) with
  | some r =>
    obtain ⟨k, h1, h2⟩ := mapFind_some h
    simp only [List.mem_cons, Prod.mk.injEq, List.not_mem_nil, or_false] at h1
    rcases h1 with ⟨rfl, rfl⟩ | ⟨rfl, rfl⟩ | ⟨rfl, rfl⟩
    · have : s = "x0" := by simp only [Expr.beq, beq_iff_eq] at h2; exact h2.symm
      simp [this, crdEnv, ha 0]
    · have : s = "y0" := by simp only [Expr.beq, beq_iff_eq] at h2; exact h2.symm
      simp [this, crdEnv, ha 1]
    · have : s = "z0" := by simp only [Expr.beq, beq_iff_eq] at h2; exact h2.symm
      simp [this, crdEnv, ha 2]
  | none =>
    have n0 : s ≠ "x0" := fun hc => by simpa [hc, Expr.beq] using mapFind_none h (.var "x0", a 0) (by simp)
    have n1 : s ≠ "y0" := fun hc => by simpa [hc, Expr.beq] using mapFind_none h (.var "y0", a 1) (by simp)
    have n2 : s ≠ "z0" := fun hc => by simpa [hc, Expr.beq] using mapFind_none h (.var "z0", a 2) (by simp)
    simp [crdEnv, n0, n1, n2]

omit [FmtName ℝ] in
theorem _root_.Heyoka.Sym.Reg.addE {a b : Expr ℝ} (ha : Reg v a) (hb : Reg v b) : Reg v (addE a b) := (ha.value.choose_spec.add hb.value.choose_spec).1
omit [FmtName ℝ] in
theorem _root_.Heyoka.Sym.Reg.mulE {a b : Expr ℝ} (ha : Reg v a) (hb : Reg v b) : Reg v (mulE a b) := (ha.value.choose_spec.mul hb.value.choose_spec).1
omit [FmtName ℝ] in
theorem _root_.Heyoka.Sym.Reg.subE {a b : Expr ℝ} (ha : Reg v a) (hb : Reg v b) : Reg v (subE a b) := (ha.value.choose_spec.sub hb.value.choose_spec).1
omit [FmtName ℝ] in
theorem _root_.Heyoka.Sym.Reg.negE {a : Expr ℝ} (ha : Reg v a) : Reg v (negE a) := ha.value.choose_spec.neg.1
omit [FmtName ℝ] in
theorem _root_.Heyoka.Sym.Reg.sq {a : Expr ℝ} (ha : Reg v a) : Reg v (sq a) := ha.value.choose_spec.pow2.1
omit [FmtName ℝ] in
theorem _root_.Heyoka.Sym.Reg.dbl (x : ℝ) : Reg v (.dbl x) := (RV.dbl x).1
omit [FmtName ℝ] in
theorem _root_.Heyoka.Sym.Reg.sinE {a : Expr ℝ} (ha : Reg v a) : Reg v (sinE a) :=
  (ha.value.choose_spec.unary (f := .sin false) (by simp) (by simp [DiffPt]) rfl).1
omit [FmtName ℝ] in
theorem _root_.Heyoka.Sym.Reg.cosE {a : Expr ℝ} (ha : Reg v a) : Reg v (cosE a) :=
  (ha.value.choose_spec.unary (f := .cos false) (by simp) (by simp [DiffPt]) rfl).1
omit [FmtName ℝ] in
theorem _root_.Heyoka.Sym.Reg.sum3 {a b c : Expr ℝ} (ha : Reg v a) (hb : Reg v b) (hc : Reg v c) : Reg v (sumE [a, b, c]) :=
  reg_sumE (by simp [ha, hb, hc])

/-- The quantities on which the transformations depend are given by differentiable functions. -/
structure EopReg (w : Env ℝ) (e : Eop ℝ) : Prop where
  hxp : Reg w e.xp
  hyp : Reg w e.yp
  hera : Reg w e.era
  hxpn : Reg w e.xpn
  hypn : Reg w e.ypn
  hspn : Reg w e.spn
  hdx : Reg w e.dx
  hdy : Reg w e.dy

omit [FmtName ℝ] in
theorem reg_rot {R : Fin 3 → Fin 3 → Expr ℝ} {x : Fin 3 → Expr ℝ} (hR : ∀ i j, Reg v (R i j)) (hx : ∀ i, Reg v (x i)) (i : Fin 3) :
    Reg v (Models.rot R x i) := Reg.sum3 (Reg.mulE (hR i 0) (hx 0)) (Reg.mulE (hR i 1) (hx 1)) (Reg.mulE (hR i 2) (hx 2))

omit [FmtName ℝ] in
theorem reg_rot3 {c s : Expr ℝ} {x : Fin 3 → Expr ℝ} (hc : Reg v c) (hs : Reg v s) (hx : ∀ i, Reg v (x i)) (i : Fin 3) : Reg v (rot3E c s x i) := by
  fin_cases i
  · exact Reg.addE (Reg.mulE hc (hx 0)) (Reg.mulE hs (hx 1))
  · exact Reg.subE (Reg.mulE hc (hx 1)) (Reg.mulE hs (hx 0))
  · exact hx 2

omit [FmtName ℝ] in
theorem reg_itrsIcrs {e : Eop ℝ} {c s : ℝ} {x : Fin 3 → Expr ℝ} (h : EopReg v e) (hx : ∀ i, Reg v (x i)) (i : Fin 3) :
    Reg v (itrsIcrs e c s x i) := by
  have cx := h.hxp.cosE
  have sx := h.hxp.sinE
  have cy := h.hyp.cosE
  have sy := h.hyp.sinE
  have h1 : ∀ i, Reg v (itrsTirs e.xp e.yp c s x i) := reg_rot (fun i j => by
    have d1 := Reg.dbl (v := v) c
    have d2 := Reg.dbl (v := v) s
    fin_cases i <;> fin_cases j
    · exact cx.mulE d1
    · exact (cy.negE.mulE d2).addE ((sy.mulE sx).mulE d1)
    · exact (sy.negE.mulE d2).subE ((cy.mulE sx).mulE d1)
    · exact cx.mulE d2
    · exact (cy.mulE d1).addE ((sy.mulE sx).mulE d2)
    · exact (sy.mulE d1).subE ((cy.mulE sx).mulE d2)
    · exact sx
    · exact sy.negE.mulE cx
    · exact cy.mulE cx) hx
  have h2 : ∀ i, Reg v (tirsCirs e.era (itrsTirs e.xp e.yp c s x) i) := reg_rot3 h.hera.negE.cosE h.hera.negE.sinE h1
  have hs : Reg v (pnS e.xpn e.ypn e.spn e.dx e.dy) :=
    h.hspn.subE ((Reg.dbl _).mulE (Reg.sum3 (h.hxpn.mulE h.hdy) (h.hypn.mulE h.hdx) (h.hdx.mulE h.hdy)))
  refine reg_rot (fun i j => ?_) (reg_rot3 hs.cosE hs.sinE h2) i
  have hX := h.hxpn.addE h.hdx
  have hY := h.hypn.addE h.hdy
  have ha := (Reg.dbl (v := v) (1 / 2)).addE ((Reg.dbl (v := v) (1 / 8)).mulE (hX.sq.addE hY.sq))
  have h1 := Reg.dbl (v := v) 1
  fin_cases i <;> fin_cases j
  · exact h1.subE (ha.mulE hX.sq)
  · exact ha.negE.mulE (hX.mulE hY)
  · exact hX
  · exact ha.negE.mulE (hX.mulE hY)
  · exact h1.subE (ha.mulE hY.sq)
  · exact hY
  · exact hX.negE
  · exact hY.negE
  · exact h1.subE (ha.mulE (hX.sq.addE hY.sq))

omit [FmtName ℝ] in
theorem floorTh_some (x : ℝ) : floorTh (some x) = some (max x 1e-2) := by
  rw [floorTh]
  by_cases h : x < 1e-2
  · rw [if_pos h, max_eq_right h.le]
  · rw [if_neg h, max_eq_left (not_lt.1 h)]

/-- The drag. -/
theorem drag_val (E : Earth D) {x : ℝ} (hT : ∀ᶠ s in 𝓝 v.time, s / secsInCy ∈ E.T) (hT' : (v.time - 86400) / secsInCy ∈ E.T) {h φ lam : ℝ}
    (hh : 0 ≤ h) (hφ : -(Real.pi / 2) < φ ∧ φ < Real.pi / 2) (hl : -Real.pi < lam ∧ lam ≤ Real.pi)
    (hg : Geodetic geoEcc2 geoA h φ lam ((E.rot (max x 1e-2) (v.time / secsInCy))ᵀ *ᵥ pos v))
    (hreg : ∀ w : Env ℝ, w.var "tm" = v.time → ∀ e, eopAt D (some (max x 1e-2)) (divE (.var "tm") (.dbl secsInCy)) = .ok e → EopReg w e)
    {Cb : Expr ℝ} {cb : ℝ} (hC : Cb.eval (tmEnv v) = some cb) :
    ∃ f d, dragAcc D (fun i => .var (crd i)) (fun i => .var (vel i)) (some x) Cb = .ok f ∧ VVal v f d ∧
      E.DragAt (max x 1e-2) v.time (pos v) (vlc v) φ lam cb d := by
  have hx : (0 : ℝ) ≤ max x 1e-2 := le_max_of_le_right (by norm_num)
  have hfl := floorTh_some x
  generalize max x 1e-2 = th at *
  have hT0 : v.time / secsInCy ∈ E.T := hT.self_of_nhds
  have htm : (Expr.var "tm" : Expr ℝ).eval (tmEnv v) = some v.time := by simp [tmEnv, Env.set]
  have hcy := eval_divE htm (Expr.eval_dbl (tmEnv v) secsInCy) secsInCy_pos.ne'
  have hpos : VVal (tmEnv v) (fun i => .var (crd i)) (pos v) := fun i => by
    fin_cases i <;> simp [pos, tmEnv, Env.set, crd]
  have hvel : VVal (tmEnv v) (fun i => .var (vel i)) (vlc v) := fun i => by
    fin_cases i <;> simp [vlc, tmEnv, Env.set, vel]
  obtain ⟨itrs, h1, h2⟩ := rotIcrsItrs_val E hT0 hcy hx hpos
  obtain ⟨q, hq⟩ : ∃ q, q = (E.rot th (v.time / secsInCy))ᵀ *ᵥ pos v := ⟨_, rfl⟩
  rw [← hq] at h2 hg
  obtain ⟨H, Φ, b1, b2, -, b3⟩ := cart2geo_converges (by norm_num [geoEcc2]) (by norm_num [geoEcc2]) (by norm_num [geoA]) hh hφ hl hg
  obtain ⟨geo, h3, h4⟩ := b3 (tmEnv v) itrs 4 h2 (by norm_num)
  -- the fixed point
  have hcr : ∀ s, VVal ((crdEnv (tmEnv v) q).set (.var "tm") s) (fun i => .var (crd0 i)) q := fun s i => by
    fin_cases i <;> simp [crdEnv, Env.set, crd0]
  have htm' : ∀ s, (divE (.var "tm") (.dbl secsInCy)).eval ((crdEnv (tmEnv v) q).set (.var "tm") s) = some (s / secsInCy) := fun s =>
    eval_divE (by simp [Env.set]) (Expr.eval_dbl _ secsInCy) secsInCy_pos.ne'
  obtain ⟨e0, he0, -⟩ := eop_val E hT0 (htm' v.time) hx
  obtain ⟨p0, hp0⟩ : ∃ p0, rotItrsIcrs D (some th) (divE (.var "tm") (.dbl secsInCy)) (fun i => .var (crd0 i)) = .ok p0 :=
    ⟨_, by rw [rotItrsIcrs, he0]; rfl⟩
  have hp0e : p0 = itrsIcrs e0 (Real.cos spAngle) (Real.sin spAngle) fun i => .var (crd0 i) := by
    rw [rotItrsIcrs, he0, Res.bind_ok] at hp0
    exact (Res.ok.inj hp0).symm
  have hget : (crdEnv (tmEnv v) q).get (.var "tm") = v.time := by simp [Env.get, crdEnv, tmEnv, Env.set]
  have hR : ∀ i, Reg (crdEnv (tmEnv v) q) (p0 i) := fun i => by
    rw [hp0e]
    refine reg_itrsIcrs (hreg _ ?_ _ he0) (fun i => by simp [Reg]) i
    exact hget
  have hval : ∀ i, ∀ᶠ s in 𝓝 v.time, (p0 i).eval ((crdEnv (tmEnv v) q).set (.var "tm") s) = some ((E.rot th (s / secsInCy) *ᵥ q) i) := fun i => by
    filter_upwards [hT] with s hs
    obtain ⟨p, a1, a2⟩ := rotItrsIcrs_val E hs (htm' s) hx (hcr s)
    rw [hp0] at a1
    rw [Res.ok.inj a1]
    exact a2 i
  have hder : ∀ i, ∃ d w, (p0 i).diff (.var "tm") = .ok d ∧ d.eval (crdEnv (tmEnv v) q) = some w ∧
      HasDerivAt (fun s => (E.rot th (s / secsInCy) *ᵥ q) i) w v.time := fun i => by
    obtain ⟨d, w, F, a1, a2, a3, a4⟩ := diff_correct ((hR i).smooth (.var "tm"))
    rw [hget] at a3 a4
    refine ⟨d, w, a1, a2, a4.congr_of_eventuallyEq ?_⟩
    filter_upwards [a3, hval i] with s s1 s2
    rw [s1] at s2
    exact (Option.some.inj s2).symm
  choose dE w hd1 hd2 hd3 using hder
  have hjac : jacTm p0 = .ok (vec3 (dE 0) (dE 1) (dE 2)) := by rw [jacTm, hd1 0, Res.bind_ok, hd1 1, Res.bind_ok, hd1 2, Res.bind_ok]
  have hw : ∀ i, ((vec3 (dE 0) (dE 1) (dE 2) i).replace (mapFind [(.var "x0", itrs 0), (.var "y0", itrs 1), (.var "z0", itrs 2)])).eval (tmEnv v) =
      some (w i) := fun i => by
    rw [eval_crd h2]
    fin_cases i
    · exact hd2 0
    · exact hd2 1
    · exact hd2 2
  have hrel : VVal (tmEnv v) (fun i => subE (.var (vel i)) ((vec3 (dE 0) (dE 1) (dE 2) i).replace (mapFind [(.var "x0", itrs 0), (.var "y0", itrs 1),
      (.var "z0", itrs 2)]))) (fun i => vlc v i - w i) := fun i => ev_sub (hvel i) (hw i)
  have hday := E.hday _ _ (v.time / 86400) (by
    rw [div_div]
    convert hT0 using 2
    norm_num [secsInCy, secsInDay]) (eval_divE htm (Expr.eval_dbl (tmEnv v) secsInDay) (by norm_num [secsInDay]))
  have hf := E.hf107 _ _ _ hT' (eval_divE (ev_sub htm (Expr.eval_dbl (tmEnv v) secsInDay)) (Expr.eval_dbl (tmEnv v) secsInCy) secsInCy_pos.ne')
  have hfa := E.hf107a _ _ _ hT0 hcy
  have hap := E.hap _ _ _ hT0 hcy
  have hrho := eval_mulE (E.hrho _ _ _ _ _ _ _ _ _ _ _ _ _ h4 hf hfa hap hday) (Expr.eval_dbl (tmEnv v) 1e9)
  have hsum := ev_sum (evalL_cons_some (ev_sq (hrel 0)) (evalL_cons_some (ev_sq (hrel 1)) (evalL_cons_some (ev_sq (hrel 2))
    (evalL_cons_some (Expr.eval_dbl (tmEnv v) (1e-8 * 1e-8)) (l := []) (xs := []) (by simp)))))
  have hvr := eval_sqrtE hsum (by
    simp only [List.sum_cons, List.sum_nil]
    positivity)
  have hfac := eval_prodE (evalL_cons_some (Expr.eval_dbl (tmEnv v) (-1 / 2)) (evalL_cons_some hrho (evalL_cons_some hvr (evalL_cons_some hC
    (evalL_cons_some (Expr.eval_dbl (tmEnv v) 1e-6) (l := []) (xs := []) (by simp))))))
  refine ⟨_, _, ?_, fun i => (eval_tm _ _).trans (eval_mulE hfac (hrel i)), w, H 4, Φ 4, Φ 3, ?_, b1 4, b1 3, ?_, fun i => ?_⟩
  · rw [dragAcc, dragTm, hfl]
    simp only [h1, Res.bind_ok, h3, hp0, hjac]
  · rw [Earth.Wind, ← hq]
    exact hd3
  · rw [← hq]
    exact b2 3
  · simp only [List.prod_cons, List.prod_nil, List.sum_cons, List.sum_nil]
    have e1 : ∀ a b c : ℝ, a + (b + (c + (1e-8 * 1e-8 + 0))) = a + b + c + 1e-16 := fun a b c => by norm_num; ring
    rw [e1]
    ring

/-! ### The equations -/

/-- The acceleration which is added if a ballistic coefficient is given. The threshold of the drag is at least `0.01`. -/
def Earth.DragTerm (E : Earth D) (x : ℝ) (v : Env ℝ) (d : Fin 3 → ℝ) : Option (Expr ℝ) → Prop
  | none => d = 0
  | some C => ∃ h φ lam cb, 0 ≤ h ∧ (-(Real.pi / 2) < φ ∧ φ < Real.pi / 2) ∧ (-Real.pi < lam ∧ lam ≤ Real.pi) ∧
      Geodetic geoEcc2 geoA h φ lam ((E.rot (max x 1e-2) (v.time / secsInCy))ᵀ *ᵥ pos v) ∧ C.eval v = some cb ∧
      E.DragAt (max x 1e-2) v.time (pos v) (vlc v) φ lam cb d

/-- The acceleration which is added if the thresholds of ELP2000 and of VSOP2013 are given. -/
def Earth.BodyTerm (E : Earth D) (v : Env ℝ) (b : Fin 3 → ℝ) : Option (ℝ × ℝ) → Prop
  | none => b = 0
  | some (et, wt) => ∃ emb, E.Emb wt (v.time / secsInMil) emb ∧ E.BodiesAt et v.time emb (pos v) b

/-- What is assumed of the state and the time: the data covers the time, the satellite is not at the centre of a body; with drag, it is on or above
the ellipsoid and not on its axis, the orientation of the Earth is differentiable, and the ballistic coefficient has a value and does not depend on a
variable with the name `tm`. -/
structure Earth.Ok (E : Earth D) (deg ord : ℕ) (x : ℝ) (Cb : Option (Expr ℝ)) (bodies : Option (ℝ × ℝ)) (v : Env ℝ) : Prop where
  centre : pos v ≠ 0
  time : ¬ (deg = 0 ∧ ord = 0) → v.time / secsInCy ∈ E.T
  drag : ∀ C, Cb = some C → (∀ᶠ s in 𝓝 v.time, s / secsInCy ∈ E.T) ∧ (v.time - 86400) / secsInCy ∈ E.T ∧
    (∃ h φ lam, 0 ≤ h ∧ (-(Real.pi / 2) < φ ∧ φ < Real.pi / 2) ∧ (-Real.pi < lam ∧ lam ≤ Real.pi) ∧
      Geodetic geoEcc2 geoA h φ lam ((E.rot (max x 1e-2) (v.time / secsInCy))ᵀ *ᵥ pos v)) ∧
    (∀ w : Env ℝ, w.var "tm" = v.time → ∀ e, eopAt D (some (max x 1e-2)) (divE (.var "tm") (.dbl secsInCy)) = .ok e → EopReg w e) ∧
    (∃ cb, C.eval v = some cb) ∧ C.occurs (.var "tm") = false
  bodies : ∀ et wt, bodies = some (et, wt) → 0 ≤ et ∧ 0 ≤ wt ∧ |v.time / secsInCy| ≤ 100 ∧ ∃ emb sun, E.Emb wt (v.time / secsInMil) emb ∧
    (∀ a, moonMu * E.moon et (v.time / secsInCy) a / (earthMu + moonMu) - sun a = auKm * emb a) ∧
    sun ≠ pos v ∧ sun ≠ 0 ∧ E.moon et (v.time / secsInCy) ≠ pos v ∧ E.moon et (v.time / secsInCy) ≠ 0

omit [FmtName ℝ] in
theorem addAcc_motion6 (a f : Fin 3 → Expr ℝ) : addAcc (motion6 a) f = .ok (motion6 fun i => addE (a i) (f i)) := rfl

/-- `eo_dynamics()` returns the equations of the motion with an acceleration which is the sum of the gravity of the Earth, the drag and the
attraction of the Sun and the Moon. -/
theorem eo_dynamics_acc (E : Earth D) {deg ord : ℕ} {x : ℝ} (hx : ¬ (deg = 0 ∧ ord = 0) → 0 ≤ x) (hd : deg ≤ 150) (ho : ord ≤ deg)
    {Cb : Option (Expr ℝ)} {bodies : Option (ℝ × ℝ)} (hv : E.Ok deg ord x Cb bodies v) :
    ∃ acc g d b, eoDynamics D deg ord (some x) Cb (bodies.map fun p => some p.1) (bodies.map fun p => some p.2) = .ok (motion6 acc) ∧
      VVal v acc (fun a => g a + d a + b a) ∧ E.GravAt deg ord x v.time (pos v) g ∧ E.DragTerm x v d Cb ∧ E.BodyTerm v b bodies := by
  obtain ⟨a1, g, h1, h2, h3⟩ := grav_val E (th := some x) (x := x) (fun h => ⟨rfl, hx h, hv.time h⟩) hd ho hv.centre
  obtain ⟨a2, d, k1, k2, k3⟩ : ∃ a2 d, withDrag D (some x) (motion6 a1) Cb = .ok (motion6 a2) ∧ VVal v a2 (fun a => g a + d a) ∧ E.DragTerm x v d Cb := by
    cases Cb with
    | none => exact ⟨a1, 0, rfl, fun a => by simpa using h2 a, rfl⟩
    | some C =>
      obtain ⟨t1, t2, ⟨h, φ, lam, t3, t4, t5, t6⟩, t7, ⟨cb, t8⟩, t9⟩ := hv.drag C rfl
      have t10 : C.eval (tmEnv v) = some cb := by rw [tmEnv, eval_set_of_not_occurs _ _ t9, t8]
      obtain ⟨f, d, f1, f2, f3⟩ := drag_val E t1 t2 t3 t4 t5 t6 t7 t10
      refine ⟨_, d, by rw [withDrag, f1, Res.bind_ok, addAcc_motion6], fun a => ev_add (h2 a) (f2 a), h, φ, lam, cb, t3, t4, t5, t6, t8, f3⟩
  obtain ⟨a3, b, l1, l2, l3⟩ : ∃ a3 b, withBodies D (motion6 a2) (bodies.map fun p => some p.1) (bodies.map fun p => some p.2) = .ok (motion6 a3) ∧
      VVal v a3 (fun a => g a + d a + b a) ∧ E.BodyTerm v b bodies := by
    cases bodies with
    | none => exact ⟨a2, 0, rfl, fun a => by simpa using k2 a, rfl⟩
    | some p =>
      obtain ⟨et, wt⟩ := p
      obtain ⟨t1, t2, t3, emb, sun, t4, t5, t6, t7, t8, t9⟩ := hv.bodies et wt rfl
      obtain ⟨f, f1, f2⟩ := bodies_val E t1 t2 t3 t4 t5 t6 t7 t8 t9
      exact ⟨_, _, by simp only [Option.map_some, withBodies, f1, Res.bind_ok, addAcc_motion6], fun a => ev_add (k2 a) (f2 a), emb, t4, sun, t5, fun a => rfl⟩
  refine ⟨a3, g, d, b, ?_, l2, h3, k3, l3⟩
  have hs : ¬ ((bodies.map fun p => some p.1).isSome ≠ (bodies.map fun p => some p.2).isSome) := by cases bodies <;> simp
  rw [eoDynamics, if_neg hs, h1, Res.bind_ok, k1, Res.bind_ok, l1]

/-- The solutions of the system are the motions with this acceleration. -/
theorem eo_dynamics_motion (E : Earth D) {deg ord : ℕ} {x : ℝ} (hx : ¬ (deg = 0 ∧ ord = 0) → 0 ≤ x) (hd : deg ≤ 150) (ho : ord ≤ deg)
    {Cb : Option (Expr ℝ)} {bodies : Option (ℝ × ℝ)} {X : ℝ → Env ℝ} {I : Set ℝ} (hv : ∀ t ∈ I, E.Ok deg ord x Cb bodies (X t))
    (ht : ∀ t ∈ I, (X t).time = t) {sys : List (Expr ℝ × Expr ℝ)}
    (hs : eoDynamics D deg ord (some x) Cb (bodies.map fun p => some p.1) (bodies.map fun p => some p.2) = .ok sys) :
    ∃ g d b : ℝ → Fin 3 → ℝ, (∀ t ∈ I, E.GravAt deg ord x t (pos (X t)) (g t) ∧ E.DragTerm x (X t) (d t) Cb ∧ E.BodyTerm (X t) (b t) bodies) ∧
      (Solves sys X I ↔ Moves X (fun t a => g t a + d t a + b t a) I) := by
  have h : ∀ t, ∃ g d b : Fin 3 → ℝ, t ∈ I → (∃ acc, sys = motion6 acc ∧ VVal (X t) acc (fun a => g a + d a + b a)) ∧
      E.GravAt deg ord x t (pos (X t)) g ∧ E.DragTerm x (X t) d Cb ∧ E.BodyTerm (X t) b bodies := by
    intro t
    by_cases hI : t ∈ I
    · obtain ⟨acc, g, d, b, h1, h2, h3, h4, h5⟩ := eo_dynamics_acc E hx hd ho (hv t hI)
      rw [hs] at h1
      rw [ht t hI] at h3
      exact ⟨g, d, b, fun _ => ⟨⟨acc, Res.ok.inj h1, h2⟩, h3, h4, h5⟩⟩
    · exact ⟨0, 0, 0, fun hc => absurd hc hI⟩
  choose g d b h using h
  refine ⟨g, d, b, fun t hI => (h t hI).2, ?_⟩
  rcases I.eq_empty_or_nonempty with rfl | ⟨t0, h0⟩
  · simp [Solves, Moves]
  · obtain ⟨⟨acc, rfl, -⟩, -⟩ := h t0 h0
    refine motion6_iff fun t hI a => ?_
    obtain ⟨⟨acc', e, hval⟩, -⟩ := h t hI
    have : acc = acc' := by
      funext a
      simp only [motion6, List.cons.injEq, Prod.mk.injEq, true_and, and_true] at e
      fin_cases a
      · exact e.1
      · exact e.2.1
      · exact e.2.2
    rw [this]
    exact hval a

/-- A ballistic coefficient which is the variable `tm` is replaced by the time: the value of the variable has no effect. -/
theorem eo_dynamics_captures_tm (E : Earth D) {x : ℝ} (hT : ∀ᶠ s in 𝓝 v.time, s / secsInCy ∈ E.T) (hT' : (v.time - 86400) / secsInCy ∈ E.T) {h φ lam : ℝ}
    (hh : 0 ≤ h) (hφ : -(Real.pi / 2) < φ ∧ φ < Real.pi / 2) (hl : -Real.pi < lam ∧ lam ≤ Real.pi)
    (hg : Geodetic geoEcc2 geoA h φ lam ((E.rot (max x 1e-2) (v.time / secsInCy))ᵀ *ᵥ pos v))
    (hreg : ∀ w : Env ℝ, w.var "tm" = v.time → ∀ e, eopAt D (some (max x 1e-2)) (divE (.var "tm") (.dbl secsInCy)) = .ok e → EopReg w e) :
    ∃ f d, dragAcc D (fun i => .var (crd i)) (fun i => .var (vel i)) (some x) (.var "tm") = .ok f ∧ VVal v f d ∧
      E.DragAt (max x 1e-2) v.time (pos v) (vlc v) φ lam v.time d :=
  drag_val E hT hT' hh hφ hl hg hreg (by simp [tmEnv, Env.set])

theorem egmAcc_throw {tbl : List (ℝ × ℝ)} {xyz : Fin 3 → Expr ℝ} {n m : ℕ} {mue ae : Expr ℝ} (h : 150 < n ∨ n < m) :
    egmAcc Real.sqrt tbl xyz n m mue ae = .throw := by
  have : egmChecks n m = .throw := by
    rw [egmChecks, egmMaxDegree]
    by_cases h1 : 150 < n
    · rw [if_pos h1]
    · rw [if_neg h1, if_pos (h.resolve_left h1)]
  rw [egmAcc, this]
  rfl

/-- Invalid arguments are refused: one of the thresholds of the third bodies without the other; an invalid threshold of IAU2006, if it is used for
the geopotential; a threshold which is not a number, if there is drag; a degree above 150 or an order above the degree; an invalid threshold of one
of the theories. -/
theorem eo_dynamics_checks (E : Earth D) (deg ord : ℕ) (th : Option ℝ) (Cb : Option (Expr ℝ)) (elpTh vsopTh : Option (Option ℝ)) :
    (elpTh.isSome ≠ vsopTh.isSome → eoDynamics D deg ord th Cb elpTh vsopTh = .throw) ∧
    (¬ (deg = 0 ∧ ord = 0) → (¬ ∃ x, th = some x ∧ 0 ≤ x) → eoDynamics D deg ord th Cb elpTh vsopTh = .throw) ∧
    (150 < deg ∨ deg < ord → eoDynamics D deg ord th Cb elpTh vsopTh = .throw) ∧
    (th = none → Cb.isSome → eoDynamics D deg ord th Cb elpTh vsopTh = .throw) ∧
    (∀ e w, elpTh = some e → vsopTh = some w → (¬ ∃ x, e = some x ∧ 0 ≤ x) ∨ (¬ ∃ x, w = some x ∧ 0 ≤ x) →
      ∀ sys, eoDynamics D deg ord th Cb elpTh vsopTh ≠ .ok sys) := by
  have key : ∀ r, ((gravDyn D deg ord th).bind fun dyn => (withDrag D th dyn Cb).bind fun dyn => withBodies D dyn elpTh vsopTh) = r →
      r = .throw → eoDynamics D deg ord th Cb elpTh vsopTh = .throw := fun r h1 h2 => by
    rw [eoDynamics, h1, h2]
    split_ifs <;> rfl
  have hinv : (¬ ∃ x, th = some x ∧ 0 ≤ x) → ∀ tm, iau2006 D.TX D.TY D.TS tm th = .throw := by
    intro h tm
    cases th with
    | none => exact (iau2006_threshold _ _ _ _).1
    | some x => exact (iau2006_threshold _ _ _ _).2 x (by by_contra hc; exact h ⟨x, rfl, not_lt.1 hc⟩)
  have hg : ¬ (deg = 0 ∧ ord = 0) → (¬ ∃ x, th = some x ∧ 0 ≤ x) → gravDyn D deg ord th = .throw := by
    intro h0 h
    simp only [gravDyn, if_neg h0, rotIcrsItrs, eopAt, hinv h, Res.bind_throw]
  refine ⟨fun h => by rw [eoDynamics, if_pos h], fun h0 h => key _ rfl ?_, fun h => key _ rfl ?_, ?_, ?_⟩
  · rw [hg h0 h, Res.bind_throw]
  · have h0 : ¬ (deg = 0 ∧ ord = 0) := by omega
    by_cases hx : ∃ x, th = some x ∧ 0 ≤ x
    · obtain ⟨x, rfl, hx⟩ := hx
      have ht : (divE timeE (.dbl secsInCy) : Expr ℝ).eval (⟨fun _ => 0, fun _ => 0, 0⟩ : Env ℝ) = some (0 / secsInCy) :=
        eval_divE ev_time (Expr.eval_dbl _ secsInCy) secsInCy_pos.ne'
      obtain ⟨X, Y, S, h1, -⟩ := iau2006_value E.hX E.hY E.hS ht hx
      simp only [gravDyn, if_neg h0, rotIcrsItrs, eopAt, h1, Res.bind_ok, egmAcc_throw h, Res.bind_throw]
    · rw [hg h0 hx, Res.bind_throw]
  · rintro rfl hC
    refine key _ rfl ?_
    have hnone : ¬ ∃ x : ℝ, (none : Option ℝ) = some x ∧ 0 ≤ x := by simp
    by_cases h0 : deg = 0 ∧ ord = 0
    · have hgd : gravDyn D deg ord none = .ok (motion6 (fcAcc (.dbl earthMu) [.dbl 1] [.dbl 0, .dbl 0, .dbl 0])) := by rw [gravDyn, if_pos h0]; rfl
      obtain ⟨C, rfl⟩ := Option.isSome_iff_exists.1 hC
      simp only [hgd, Res.bind_ok, withDrag, dragAcc, dragTm, floorTh, rotIcrsItrs, eopAt, hinv hnone, Res.bind_throw]
    · rw [hg h0 hnone, Res.bind_throw]
  · rintro e w rfl rfl h sys hc
    have h3 : ∀ xyz, thirdBody D xyz e w = .throw ∨ ∃ r, thirdBody D xyz e w = r ∧ ∀ f, r ≠ .ok f := by
      intro xyz
      rw [thirdBody]
      by_cases hw : ∃ x, w = some x ∧ 0 ≤ x
      · have he := h.resolve_right (fun hn => hn hw)
        rw [(elp_cartesian_threshold D.elp _ he).2.2]
        refine .inr ⟨_, rfl, fun f => ?_⟩
        cases vsopIcrf D.vsop 3 (divE timeE (.dbl secsInMil)) w <;> simp
      · rw [(vsop_cartesian_invalid D.vsop 3 _ w (fun hc => hw hc.2.2)).2]
        exact .inl rfl
    have hno : ∀ xyz f, thirdBody D xyz e w ≠ .ok f := fun xyz f hf => by
      rcases h3 xyz with h4 | ⟨r, h4, h5⟩
      · rw [h4] at hf; cases hf
      · exact h5 f (h4 ▸ hf)
    rw [eoDynamics] at hc
    simp only [Option.isSome_some, ne_eq, not_true_eq_false, if_false] at hc
    cases hg' : gravDyn D deg ord th with
    | throw => rw [hg'] at hc; cases hc
    | ub => rw [hg'] at hc; cases hc
    | ok dyn =>
      rw [hg', Res.bind_ok] at hc
      cases hd : withDrag D th dyn Cb with
      | throw => rw [hd] at hc; cases hc
      | ub => rw [hd] at hc; cases hc
      | ok dyn' =>
        rw [hd, Res.bind_ok, withBodies] at hc
        cases hb : thirdBody D (fun i => .var (crd i)) e w with
        | ok f => exact hno _ f hb
        | throw => rw [hb] at hc; cases hc
        | ub => rw [hb] at hc; cases hc

end

/-- The constants, in km and s, and the angle `s'` of the polar motion. -/
theorem eo_dynamics_constants : earthMu = 398600.4415 ∧ earthA = 6378.1363 ∧ sunMu = 132712440041 ∧ moonMu = 4902.800145 ∧ auKm = 149597870.7 ∧
    secsInCy = 100 * 365.25 * 86400 ∧ secsInMil = 1000 * 365.25 * 86400 ∧ geoA = 6378.137 ∧ 1 - geoEcc2 = (6356.752314245 / 6378.137) ^ 2 ∧
    spAngle = -0.000047 / 3600 * (Real.pi / 180) := by
  refine ⟨?_, ?_, ?_, ?_, ?_, ?_, ?_, ?_, ?_, ?_⟩
  · norm_num [earthMu]
  · norm_num [earthA]
  · norm_num [sunMu]
  · norm_num [moonMu]
  · norm_num [auKm]
  · norm_num [secsInCy, secsInDay]
  · norm_num [secsInMil, secsInCy, secsInDay]
  · norm_num [geoA]
  · norm_num [geoEcc2]
  · rw [spAngle]; ring

/-! ### The hypotheses can be met -/

/-- The Moon is not at the centre of the Earth if its distance is not zero. -/
theorem Earth.moon_ne [DFunc] {D : EarthData} (E : Earth D) {th τ : ℝ} (hth : 0 ≤ th) (h100 : |τ| ≤ 100) (hd : elpDistVal D.elp th τ ≠ 0) :
    E.moon th τ ≠ 0 := by
  obtain ⟨p, z, -, hz, e, hl⟩ := elp_fk5_value (v := ⟨fun _ => 0, fun _ => 0, 0⟩) E.help (Expr.eval_dbl _ τ) hth h100
  intro h0
  have h1 : VVal ⟨fun _ => 0, fun _ => 0, 0⟩ (fk5Icrs p) (0 : Fin 3 → ℝ) := by
    rw [← h0, Earth.moon, ← e]
    exact ev_rotM (fun i j => Expr.eval_dbl _ _) hz
  obtain ⟨⟨q, hq, hb⟩, -⟩ := fk5_round_trip hz
  have h2 : VVal ⟨fun _ => 0, fun _ => 0, 0⟩ (icrsFk5 (fk5Icrs p)) ((Matrix.of fun i j => (fk5Mat j i : ℝ)) *ᵥ (0 : Fin 3 → ℝ)) := ev_rotM (fun i j => Expr.eval_dbl _ _) h1
  have hq0 : ∀ i, q i = 0 := fun i => by
    have := (hq i).symm.trans (h2 i)
    simpa using Option.some.inj this
  have k0 := hb 0
  have k1 := hb 1
  have k2 := hb 2
  rw [hq0, zero_sub, abs_neg] at k0 k1 k2
  have s0 : |z 0| + |z 1| + |z 2| ≤ 0 := by linarith
  have z0 : z 0 = 0 := abs_eq_zero.1 (le_antisymm (by linarith [abs_nonneg (z 1), abs_nonneg (z 2)]) (abs_nonneg _))
  have z1 : z 1 = 0 := abs_eq_zero.1 (le_antisymm (by linarith [abs_nonneg (z 0), abs_nonneg (z 2)]) (abs_nonneg _))
  have z2 : z 2 = 0 := abs_eq_zero.1 (le_antisymm (by linarith [abs_nonneg (z 0), abs_nonneg (z 1)]) (abs_nonneg _))
  have : len2 z = 0 := by simp [len2, z0, z1, z2]
  rw [this, zero_sub, abs_neg, abs_of_nonneg (sq_nonneg _)] at hl
  have : 0 < elpDistVal D.elp th τ ^ 2 := by positivity
  linarith

/-- Tables for an example. -/
noncomputable def exElp : ElpTables := ⟨fun n => if n = 3 then [⟨385000, 0, 0, 0, 0, 0, []⟩] else [], fun _ => []⟩
noncomputable def exVsop (a : ℝ) (_ j : ℕ) : List (List VsopRow) := if j = 1 then [[⟨0, a, []⟩]] else []

/-- Data for an example: an Earth which rotates, a density which depends on the height and on the F10.7 index of the day before, the Moon at a constant
distance, the Sun at a distance of about `a` astronomical units. -/
noncomputable def exData (a : ℝ) : EarthData where
  pmX _ := .dbl 0
  pmY _ := .dbl 0
  era e := e
  dX _ := .dbl 0
  dY _ := .dbl 0
  f107 e := e
  f107a _ := .dbl 150
  apAvg _ := .dbl 4
  dayfrac e := e
  TX := []
  TY := []
  TS := []
  egm := List.replicate 11473 (0, 0)
  vsop := exVsop a
  elp := exElp
  density geo f _ _ _ := mulE (geo 0) f

noncomputable def exEarth [DFunc] (a : ℝ) : Earth (exData a) where
  T := Set.univ
  xp _ := 0
  yp _ := 0
  era τ := τ
  dx _ := 0
  dy _ := 0
  f107 τ := τ
  f107a _ := 150
  ap _ := 4
  day d := d
  rho h _ _ F _ _ _ := h * F
  hxp _ _ _ _ _ := Expr.eval_dbl _ _
  hyp _ _ _ _ _ := Expr.eval_dbl _ _
  hera _ _ _ _ h := h
  hdx _ _ _ _ _ := Expr.eval_dbl _ _
  hdy _ _ _ _ _ := Expr.eval_dbl _ _
  hf107 _ _ _ _ h := h
  hf107a _ _ _ _ _ := Expr.eval_dbl _ _
  hap _ _ _ _ _ := Expr.eval_dbl _ _
  hday _ _ _ _ h := h
  hrho _ _ _ _ _ _ _ _ _ _ _ _ _ hg hf _ _ _ := eval_mulE (hg 0) hf
  hX _ h := (List.not_mem_nil h).elim
  hY _ h := (List.not_mem_nil h).elim
  hS _ h := (List.not_mem_nil h).elim
  hegm := List.length_replicate
  help := ⟨fun n r hr => by
    have hr : r ∈ exElp.main n := hr
    simp only [exElp] at hr
    split_ifs at hr
    · simp at hr; subst hr; simp [Theory.Small]
    · simp at hr, fun n r hr => (List.not_mem_nil hr).elim⟩

theorem reg_horner [DFunc] {v : Env ℝ} {x : Expr ℝ} (hx : Reg v x) {cfs : List (Expr ℝ)} (h : ∀ c ∈ cfs, Reg v c) : Reg v (hornerE cfs x) := by
  have key : ∀ (cs : List (Expr ℝ)) (r : Expr ℝ), Reg v r → (∀ c ∈ cs, Reg v c) → Reg v (cs.foldl (fun ret c => addE c (mulE ret x)) r) := by
    intro cs
    induction cs with
    | nil => exact fun r hr _ => hr
    | cons c cs ih => exact fun r hr hc => ih _ ((hc c List.mem_cons_self).addE (hr.mulE hx)) fun d hd => hc d (List.mem_cons_of_mem _ hd)
  rw [hornerE]
  have hr : ∀ c ∈ cfs.reverse, Reg v c := fun c hc => h c (List.mem_reverse.1 hc)
  revert hr
  cases cfs.reverse with
  | nil => exact fun _ => Reg.dbl 0
  | cons c cs => exact fun hr => key cs c (hr c List.mem_cons_self) fun d hd => hr d (List.mem_cons_of_mem _ hd)

theorem exEarth_reg [DFunc] (a x : ℝ) (w : Env ℝ) (e : Eop ℝ)
    (h : eopAt (exData a) (some (max x 1e-2)) (divE (.var "tm") (.dbl secsInCy)) = .ok e) : EopReg w e := by
  have hx : ¬ max x 1e-2 < 0 := not_lt.2 (le_max_of_le_right (by norm_num))
  have ht : Reg w (divE (.var "tm") (.dbl secsInCy)) :=
    RV.div (x := w.var "tm") (⟨trivial, by simp⟩ : RV w (.var "tm") _) (RV.dbl secsInCy) secsInCy_pos.ne'
  have hN : ∀ p, Reg w (hornerN p (divE (.var "tm") (.dbl secsInCy))) := fun p =>
    reg_horner ht fun c hc => by
      obtain ⟨y, -, rfl⟩ := List.mem_map.1 hc
      exact Reg.dbl y
  have hE : Reg w (hornerE [] (divE (.var "tm") (.dbl secsInCy))) := reg_horner ht (by simp)
  have hp : ∀ p, Reg w (addE (mulE (hornerN p (divE (.var "tm") (.dbl secsInCy))) (.dbl arcsec2rad)) (hornerE [] (divE (.var "tm") (.dbl secsInCy)))) :=
    fun p => ((hN p).mulE (Reg.dbl _)).addE hE
  rw [eopAt, show (exData a).TX = [] from rfl, show (exData a).TY = [] from rfl, show (exData a).TS = [] from rfl] at h
  simp only [iau2006, if_neg hx, trigSums, Res.bind_ok, Res.ok.injEq] at h
  subst h
  refine ⟨Reg.dbl 0, Reg.dbl 0, ht, hp _, hp _, ?_, Reg.dbl 0, Reg.dbl 0⟩
  refine Reg.sum3 ((hN _).mulE (Reg.dbl _)) hE ?_
  exact RV.div ((hp polyX).mulE (hp polyY)).negE.value.choose_spec (RV.dbl 2) (by norm_num)

theorem exEarth_dist (τ : ℝ) : elpDistVal exElp 0 τ ≠ 0 := by
  have : elpDistVal exElp 0 τ = 385000 + (0 - 2 * 385000 * 0.55604 / (3 * 1732559343.18)) := by
    have h1 : elpPerturb elpA0 (fun n => exElp.pert (n + 2)) 0 τ = 0 := by simp [elpPerturb, exElp, elpPert, sumOver]
    have h2 : exElp.main 3 = [⟨385000, 0, 0, 0, 0, 0, []⟩] := by simp [exElp]
    rw [elpDistVal, h1, h2, elpMainCos, sumOver_pos _ (by norm_num [elpA0])]
    simp [sumOver, comb, elpCorr]
  rw [this]
  norm_num

/-- A state which satisfies the assumptions for the geopotential of degree 2 and the drag. -/
example [DFunc] [FmtName ℝ] : ∃ v : Env ℝ, (exEarth 1).Ok 2 2 0 (some (.par 0)) none v := by
  have hs : Function.Surjective ((exEarth 1).rot (max 0 1e-2) (86400 / secsInCy))ᵀ.mulVec := by
    rw [mulVec_surjective_iff_isUnit, ← mulVec_injective_iff_isUnit]
    intro p q h
    by_contra hc
    refine (exEarth 1).rot_ne (max 0 1e-2) (86400 / secsInCy) (sub_ne_zero.2 hc) ?_
    rw [mulVec_sub]
    exact sub_eq_zero.2 h
  obtain ⟨r, hr⟩ := hs (geoPt geoEcc2 geoA 400 1 1)
  have hg : Geodetic geoEcc2 geoA 400 1 1 (geoPt geoEcc2 geoA 400 1 1) :=
    (geodetic_iff (by norm_num [geoEcc2]) (by norm_num [geoEcc2]) (by norm_num [geoA])).2 rfl
  refine ⟨⟨fun s => if s = "x" then r 0 else if s = "y" then r 1 else r 2, fun _ => 1, 86400⟩, ?_⟩
  have hpos : pos ⟨fun s => if s = "x" then r 0 else if s = "y" then r 1 else r 2, fun _ => 1, 86400⟩ = r := by
    ext i
    fin_cases i <;> simp [pos, crd]
  refine ⟨?_, fun _ => trivial, ?_, by simp⟩
  · rw [hpos]
    rintro rfl
    have h2 : geoPt geoEcc2 geoA 400 1 1 2 = 0 := by rw [← hr]; simp
    have h3 : 0 < geoPt geoEcc2 geoA 400 1 1 2 := by
      have := rN_pos (e := geoEcc2) (R := geoA) (by norm_num [geoEcc2]) (by norm_num [geoEcc2]) (by norm_num [geoA]) 1
      have hs : 0 < Real.sin 1 := Real.sin_pos_of_pos_of_lt_pi one_pos (by linarith [Real.pi_gt_three])
      have : (0 : ℝ) < 1 - geoEcc2 := by norm_num [geoEcc2]
      simp [geoPt]
      positivity
    linarith
  · rintro C hC
    cases hC
    refine ⟨.of_forall fun _ => trivial, trivial, ⟨400, 1, 1, by norm_num, ⟨by linarith [Real.pi_gt_three], by linarith [Real.pi_gt_three]⟩,
      ⟨by linarith [Real.pi_gt_three], by linarith [Real.pi_gt_three]⟩, ?_⟩, fun w _ e he => exEarth_reg 1 0 w e he, ⟨1, by simp⟩, by simp [Expr.occurs]⟩
    rw [hpos]
    exact hr ▸ hg

/-- A state which satisfies the assumptions for the third bodies. -/
example [DFunc] [FmtName ℝ] : ∃ (a : ℝ) (v : Env ℝ), (exEarth a).Ok 0 0 0 none (some (0, 0)) v := by
  have h100 : |86400 / secsInCy| ≤ 100 := by norm_num [secsInCy, secsInDay, abs_le]
  have hm : ∀ a, (exEarth a).moon 0 (86400 / secsInCy) ≠ 0 := fun a => (exEarth a).moon_ne le_rfl h100 (exEarth_dist _)
  have hma : ∀ a b, (exEarth a).moon 0 (86400 / secsInCy) = (exEarth b).moon 0 (86400 / secsInCy) := fun _ _ => rfl
  obtain ⟨c, hc⟩ : ∃ c : Fin 3 → ℝ, ∀ a, 0 < a → (exEarth a).Emb 0 (86400 / secsInMil) (a • c) ∧ c ≠ 0 := by
    refine ⟨(R3 (-icrfPhi) * R1 (-icrfEps)) *ᵥ (orbitRot 0 0 0 *ᵥ orbitPos 1 0 0), fun a ha => ⟨⟨0, 0, 0, 0, ?_⟩, ?_⟩⟩
    · have h1 : vsopElement (exData a).vsop 3 0 (86400 / secsInMil) 1 = a := by
        show vsopElement (exVsop a) 3 0 (86400 / secsInMil) 1 = a
        simp [vsopElement, poly, vsopSeries, sumOver, trigTerm, comb, amp, exVsop]
      have h2 : ∀ j, j ≠ 1 → vsopElement (exData a).vsop 3 0 (86400 / secsInMil) j = 0 := fun j hj => by
        show vsopElement (exVsop a) 3 0 (86400 / secsInMil) j = 0
        simp [vsopElement, poly, hj, exVsop]
      rw [h1, h2 2 (by norm_num), h2 3 (by norm_num), h2 4 (by norm_num), h2 5 (by norm_num), h2 6 (by norm_num)]
      refine ⟨fun s => Real.sqrt (vsopMu 3 / a ^ 3) * s, ⟨ha, by norm_num, ⟨le_rfl, Real.pi_pos⟩, by simp, by simp, by simp, by simp⟩, fun s => by simp, ?_⟩
      have : orbitPos a 0 (Real.sqrt (vsopMu 3 / a ^ 3) * 0) = a • orbitPos 1 0 0 := by
        ext i
        fin_cases i <;> simp [orbitPos]
      rw [this, mulVec_smul, mulVec_smul]
    · intro h
      have := congrArg len2 h
      rw [len2_orth (orth_mul (R3_orth _) (R1_orth _)), orbitRot, len2_orth (orth_mul (orth_mul (R3_orth _) (R1_orth _)) (R3_orth _))] at this
      simp [len2, orbitPos] at this
  obtain ⟨a, ha, hs⟩ : ∃ a : ℝ, 0 < a ∧ (fun i => moonMu * (exEarth a).moon 0 (86400 / secsInCy) i / (earthMu + moonMu) - auKm * (a • c) i) ≠ 0 := by
    by_contra hn
    push Not at hn
    have e1 := hn 1 one_pos
    have e2 := hn 2 two_pos
    refine (hc 1 one_pos).2 (funext fun i => ?_)
    have f1 := congrFun e1 i
    have f2 := congrFun e2 i
    rw [hma 2 1] at f2
    simp only [Pi.zero_apply, Pi.smul_apply, smul_eq_mul] at f1 f2 ⊢
    have hau : (0 : ℝ) < auKm := by norm_num [auKm]
    have : auKm * c i = 0 := by linarith
    rcases mul_eq_zero.1 this with h | h
    · linarith
    · exact h
  obtain ⟨sun, hsun⟩ : ∃ sun, sun = fun i => moonMu * (exEarth a).moon 0 (86400 / secsInCy) i / (earthMu + moonMu) - auKm * (a • c) i := ⟨_, rfl⟩
  obtain ⟨r, hr⟩ := Infinite.exists_notMem_finset ({0, sun, (exEarth a).moon 0 (86400 / secsInCy)} : Finset (Fin 3 → ℝ))
  simp only [Finset.mem_insert, Finset.mem_singleton, not_or] at hr
  have hpos : pos ⟨fun s => if s = "x" then r 0 else if s = "y" then r 1 else r 2, fun _ => 1, 86400⟩ = r := by
    ext i
    fin_cases i <;> simp [pos, crd]
  refine ⟨a, ⟨fun s => if s = "x" then r 0 else if s = "y" then r 1 else r 2, fun _ => 1, 86400⟩, by rw [hpos]; exact hr.1, by simp, by simp, ?_⟩
  rintro et wt h
  cases h
  rw [hpos]
  exact ⟨le_rfl, le_rfl, h100, a • c, sun, (hc a ha).1, fun i => by rw [hsun]; ring, Ne.symm hr.2.1, hsun ▸ hs, Ne.symm hr.2.2, hm a⟩

end Heyoka.EoDyn

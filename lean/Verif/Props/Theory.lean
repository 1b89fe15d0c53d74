import Verif.Theory.Lemmas

/-!
# C62: the analytical theories are the truncated series of their tables
-/

set_option linter.unusedSectionVars false

namespace Heyoka.Theory

open Heyoka.Sym Heyoka.Models

/-! ### Specification -/

/-- Indices which fit `std::int8_t`. -/
def Small (idx : List Int) : Prop := ∀ n ∈ idx, -128 ≤ n ∧ n ≤ 127

/-- Sums over the rows which satisfy a condition. -/
noncomputable def sumOver {α : Type} (keep : α → Prop) (f : α → ℝ) (rows : List α) : ℝ :=
  open Classical in ((rows.filter fun r => keep r).map f).sum

/-- The number of the rows which satisfy a condition. -/
noncomputable def countOver {α : Type} (keep : α → Prop) (rows : List α) : Nat := open Classical in (rows.filter fun r => keep r).length

/-- The amplitude of a term. -/
noncomputable def amp (s c : ℝ) : ℝ := Real.sqrt (s ^ 2 + c ^ 2)

/-- A term of a trigonometric series. -/
noncomputable def trigTerm (s c arg : ℝ) : ℝ := s * Real.sin arg + c * Real.cos arg

/-- A trigonometric series of the IAU2006 theory in microarcseconds: the terms whose amplitude in arcseconds is not below the threshold. -/
noncomputable def iauSeries (as : List ℝ) (th : ℝ) (rows : List IauRow) : ℝ :=
  sumOver (fun r => th ≤ amp r.s r.c / 1e6) (fun r => trigTerm r.s r.c (comb as r.idx)) rows

/-- The fundamental arguments: five lunisolar ones, given in arcseconds, and nine planetary ones. -/
noncomputable def iauArgVals (t : ℝ) : List ℝ := lunisolar.map (fun p => poly p t * arcsec2rad) ++ planetary.map fun p => poly p t

/-- A coordinate of the pole in radians, from its polynomial in arcseconds and its tables for the powers of the time. -/
noncomputable def iauCoord (P : List ℝ) (T : List (List IauRow)) (th t : ℝ) : ℝ :=
  poly P t * arcsec2rad + poly (T.map fun rows => iauSeries (iauArgVals t) th rows * uas2rad) t

/-- A trigonometric series of VSOP2013. -/
noncomputable def vsopSeries (t th : ℝ) (rows : List VsopRow) : ℝ :=
  sumOver (fun r => th ≤ amp r.s r.c) (fun r => trigTerm r.s r.c (comb (lamData.map fun l => l.1 + l.2 * t) r.idx)) rows

/-- The linear part of a polynomial argument. -/
noncomputable def lin (p : List ℝ) (t : ℝ) : ℝ := poly (p.take 2) t

/-- The longitudes of the planets from Mercury to Neptune. -/
noncomputable def elpPlanetVals (t : ℝ) : List ℝ :=
  [4.4026088424029615 + 2608.7903141574106 * t, 3.1761466969075944 + 1021.3285546211089 * t, 1.753470343150658 + 628.30758496215537 * t,
   6.2034809133999449 + 334.06124314922965 * t, 0.59954649738867349 + 52.969096509472053 * t, 0.87401675651848076 + 21.329909543800007 * t,
   5.4812938716049908 + 7.4781598567143535 * t, 5.3118862867834666 + 3.8133035637584562 * t]

/-- The values of the arguments of ELP2000: the Delaunay arguments for the main problem; `ζ` and the linear parts of the Delaunay arguments; the
longitudes of the planets with the linear parts of `D`, `l`, `F`, or of all four. -/
noncomputable def elpVals (k : ElpKind) (t : ℝ) : List ℝ :=
  match k with
  | .main => [poly elpD t, poly elpLp t, poly elpL t, poly elpF t]
  | .zeta => [poly elpZeta t, lin elpD t, lin elpLp t, lin elpL t, lin elpF t]
  | .plan1 => elpPlanetVals t ++ [lin elpD t, lin elpL t, lin elpF t]
  | .plan2 => (elpPlanetVals t).take 7 ++ [lin elpD t, lin elpLp t, lin elpL t, lin elpF t]

/-- A series of the main problem for longitude and latitude; the threshold applies to the amplitudes of the table, which are then corrected. -/
noncomputable def elpMainSin (as : List ℝ) (th : ℝ) (rows : List ElpMain) : ℝ :=
  sumOver (fun r => th < |r.A|) (fun r => (r.A + elpCorr r * 4.8481368110953598e-06) * Real.sin (comb as r.idx)) rows

/-- The series of the main problem for the distance; the threshold applies to the amplitudes divided by `a0`. -/
noncomputable def elpMainCos (as : List ℝ) (th : ℝ) (rows : List ElpMain) : ℝ :=
  sumOver (fun r => th < |r.A / elpA0|) (fun r => (r.A + (elpCorr r - 2 * r.A * 0.55604 / (3 * 1732559343.18))) * Real.cos (comb as r.idx)) rows

/-- A series of perturbations; the threshold applies to the amplitudes divided by a unit (1 for the angles, `a0` for the distance). -/
noncomputable def elpPert (unit : ℝ) (as : List ℝ) (th : ℝ) (rows : List ElpPert) : ℝ :=
  sumOver (fun r => th < |r.A / unit|) (fun r => r.A * Real.sin (comb as r.idx + r.phi)) rows

/-- The perturbations of a coordinate in ELP2000: figure of the Earth (4 and, multiplied by the time, 7), planets (10, 13, 16, 19), tides (22, 25),
figure of the Moon (28), relativity (31) and eccentricity of the Sun (34, multiplied by the square of the time). -/
noncomputable def elpPerturb (unit : ℝ) (rows : Nat → List ElpPert) (th t : ℝ) : ℝ :=
  (elpPert unit (elpVals .zeta t) th (rows 4) + elpPert unit (elpVals .plan1 t) th (rows 10) + elpPert unit (elpVals .plan2 t) th (rows 16) +
      elpPert unit (elpVals .zeta t) th (rows 22) + elpPert unit (elpVals .zeta t) th (rows 28) + elpPert unit (elpVals .zeta t) th (rows 31)) +
    t * (elpPert unit (elpVals .zeta t) th (rows 7) + elpPert unit (elpVals .plan1 t) th (rows 13) + elpPert unit (elpVals .plan2 t) th (rows 19) +
      elpPert unit (elpVals .zeta t) th (rows 25)) +
    t ^ 2 * elpPert unit (elpVals .zeta t) th (rows 34)

/-! ### Lemmas -/

/-- A trigonometric series of ELP2000 in sines. -/
noncomputable def elpSin (as : List ℝ) (th : ℝ) (rows : List ElpRow) : ℝ :=
  sumOver (fun r => th < |r.test|) (fun r => r.amp * Real.sin (comb as r.idx + r.phi)) rows

/-- A trigonometric series of ELP2000 in cosines. -/
noncomputable def elpCos (as : List ℝ) (th : ℝ) (rows : List ElpRow) : ℝ :=
  sumOver (fun r => th < |r.test|) (fun r => r.amp * Real.cos (comb as r.idx + r.phi)) rows

/-- The arguments, as the code lists their coefficients. -/
theorem elpVals_cfs (k : ElpKind) (t : ℝ) : elpVals k t = (elpCfs k).map fun p => poly p t := by
  cases k <;> simp [elpVals, elpCfs, elpPlanetVals, elpPlanets, lin, poly, mul_comm]

/-- The same for the rows as the code uses them: figure of the Earth (4 and, multiplied by the time, 7), planets (10, 13, 16, 19), tides (22, 25),
figure of the Moon (28), relativity (31) and eccentricity of the Sun (34, multiplied by the square of the time). -/
noncomputable def elpPertVal (rows : Nat → List ElpRow) (th t : ℝ) : ℝ :=
  (elpSin (elpVals .zeta t) th (rows 4) + elpSin (elpVals .plan1 t) th (rows 10) + elpSin (elpVals .plan2 t) th (rows 16) +
      elpSin (elpVals .zeta t) th (rows 22) + elpSin (elpVals .zeta t) th (rows 28) + elpSin (elpVals .zeta t) th (rows 31)) +
    t * (elpSin (elpVals .zeta t) th (rows 7) + elpSin (elpVals .plan1 t) th (rows 13) + elpSin (elpVals .plan2 t) th (rows 19) +
      elpSin (elpVals .zeta t) th (rows 25)) +
    t ^ 2 * elpSin (elpVals .zeta t) th (rows 34)

theorem sumOver_nil {α : Type} (keep : α → Prop) (f : α → ℝ) : sumOver keep f [] = 0 := by simp [sumOver]

theorem sumOver_pos {α : Type} {keep : α → Prop} (f : α → ℝ) {r : α} (h : keep r) (rs : List α) :
    sumOver keep f (r :: rs) = f r + sumOver keep f rs := by simp [sumOver, h]

theorem sumOver_neg {α : Type} {keep : α → Prop} (f : α → ℝ) {r : α} (h : ¬ keep r) (rs : List α) :
    sumOver keep f (r :: rs) = sumOver keep f rs := by simp [sumOver, h]

theorem sumOver_map {α β : Type} (keep : β → Prop) (f : β → ℝ) (g : α → β) (rows : List α) :
    sumOver keep f (rows.map g) = sumOver (fun r => keep (g r)) (fun r => f (g r)) rows := by
  induction rows with
  | nil => simp [sumOver]
  | cons r rs ih =>
    rw [List.map_cons]
    by_cases hk : keep (g r)
    · rw [sumOver_pos (keep := keep) _ hk, sumOver_pos (keep := fun r => keep (g r)) _ hk, ih]
    · rw [sumOver_neg (keep := keep) _ hk, sumOver_neg (keep := fun r => keep (g r)) _ hk, ih]

theorem amp_div (s c : ℝ) : Real.sqrt (s / 1e6 * (s / 1e6) + c / 1e6 * (c / 1e6)) = amp s c / 1e6 := by
  rw [amp, show s / 1e6 * (s / 1e6) + c / 1e6 * (c / 1e6) = (s ^ 2 + c ^ 2) / 1e6 ^ 2 by ring, Real.sqrt_div' _ (by positivity), Real.sqrt_sq (by norm_num)]

theorem uas_eq : uas2rad = arcsec2rad / 1e6 := by
  rw [uas2rad, arcsec2rad, div_div]

theorem trigTerm_le (s c a : ℝ) : |trigTerm s c a| ≤ amp s c := by
  rw [trigTerm, amp]
  apply Real.abs_le_sqrt
  nlinarith [sq_nonneg (s * Real.cos a - c * Real.sin a), Real.sin_sq_add_cos_sq a, sq_nonneg s, sq_nonneg c,
    show (s * Real.sin a + c * Real.cos a) ^ 2 + (s * Real.cos a - c * Real.sin a) ^ 2 = (s ^ 2 + c ^ 2) * (Real.sin a ^ 2 + Real.cos a ^ 2) by ring]

section
variable [DFunc] {v : Env ℝ}

theorem trigBuilder_ok {as : List (Expr ℝ)} {xs : List ℝ} (ha : List.Forall₂ (fun a x => Expr.eval v a = some x) as xs) (th : ℝ) :
    ∀ {rows : List IauRow}, (∀ r ∈ rows, Small r.idx) → ∀ {td : TrigDict}, Inv v td → (∀ a ∈ as, Has td a) →
      ∃ es td' ys, trigBuilder as th rows td = .ok (es, td') ∧ Expr.evalL v es = some ys ∧ ys.sum = iauSeries xs th rows * uas2rad ∧ Inv v td' ∧
        ∀ b, Has td b → Has td' b := by
  intro rows
  induction rows with
  | nil => intro _ td hi _; exact ⟨[], td, [], rfl, by simp, by simp [iauSeries, sumOver], hi, fun b hb => hb⟩
  | cons r rs ih =>
    intro hs td hi hh
    have hs' : ∀ q ∈ rs, Small q.idx := fun q hq => hs q (List.mem_cons_of_mem _ hq)
    rw [trigBuilder]
    simp only [amp_div]
    by_cases hk : amp r.s r.c / 1e6 < th
    · rw [if_pos hk]
      obtain ⟨es, td', ys, h1, h2, h3, h4⟩ := ih hs' hi hh
      exact ⟨es, td', ys, h1, h2, by rw [h3, iauSeries, iauSeries, sumOver_neg (keep := fun r : IauRow => th ≤ amp r.s r.c / 1e6) _ (not_le.2 hk)], h4⟩
    · rw [if_neg hk]
      obtain ⟨cs, td1, zs, e1, hc, hz, hi1, hk1⟩ := gather_ok ha (hs r List.mem_cons_self) hi hh
      obtain ⟨c, e2, hv⟩ := pairwiseCmul_ok hc
      obtain ⟨es, td', ys, h1, h2, h3, h4, h5⟩ := ih hs' hi1 (fun a h => hk1 a (hh a h))
      rw [hz] at hv
      have hv1 := hv.1
      have hv2 := hv.2
      rw [E_re] at hv1
      rw [E_im] at hv2
      refine ⟨_, td', _, by rw [e1]; simp only [Res.bind_ok]; rw [e2]; simp only [Res.bind_ok]; rw [h1]; rfl,
        evalL_cons_some (eval_mulE (Expr.eval_dbl _ _) hv1) (evalL_cons_some (eval_mulE (Expr.eval_dbl _ _) hv2) h2), ?_, h4,
        fun b hb => h5 b (hk1 b hb)⟩
      rw [List.sum_cons, List.sum_cons, h3, iauSeries, iauSeries, sumOver_pos (keep := fun r : IauRow => th ≤ amp r.s r.c / 1e6) _ (not_lt.1 hk), uas_eq, trigTerm]
      push_cast; rw [one_mul]; ring

theorem trigSums_ok {as : List (Expr ℝ)} {xs : List ℝ} (ha : List.Forall₂ (fun a x => Expr.eval v a = some x) as xs) (th : ℝ) :
    ∀ {T : List (List IauRow)}, (∀ rows ∈ T, ∀ r ∈ rows, Small r.idx) → ∀ {td : TrigDict}, Inv v td → (∀ a ∈ as, Has td a) →
      ∃ es td', trigSums as th T td = .ok (es, td') ∧
        List.Forall₂ (fun e y => Expr.eval v e = some y) es (T.map fun rows => iauSeries xs th rows * uas2rad) ∧ Inv v td' ∧
        ∀ b, Has td b → Has td' b := by
  intro T
  induction T with
  | nil => intro _ td hi _; exact ⟨[], td, rfl, .nil, hi, fun b hb => hb⟩
  | cons rows T ih =>
    intro hs td hi hh
    obtain ⟨es, td1, ys, e1, h2, h3, h4, h5⟩ := trigBuilder_ok ha th (hs rows List.mem_cons_self) hi hh
    obtain ⟨fs, td', f1, f2, f3, f4⟩ := ih (fun q hq => hs q (List.mem_cons_of_mem _ hq)) h4 (fun a h => h5 a (hh a h))
    refine ⟨sumE es :: fs, td', by rw [trigSums, e1]; simp only [Res.bind_ok]; rw [f1]; simp only [Res.bind_ok], .cons ?_ f2, f3,
      fun b hb => f4 b (h5 b hb)⟩
    rw [ev_sum h2, h3]

theorem forall₂_map_dbl {α : Type} {f : α → Expr ℝ} {g : α → ℝ} (h : ∀ p, (f p).eval v = some (g p)) (l : List α) :
    List.Forall₂ (fun a x => Expr.eval v a = some x) (l.map f) (l.map g) := by
  induction l with
  | nil => exact .nil
  | cons p l ih => exact .cons (h p) ih

theorem iauArgs_vals {tm : Expr ℝ} {t : ℝ} (ht : tm.eval v = some t) : List.Forall₂ (fun a x => Expr.eval v a = some x) (iauArgs tm) (iauArgVals t) :=
  List.rel_append (forall₂_map_dbl (fun p => eval_mulE (ev_hornerN p ht) (Expr.eval_dbl _ _)) _) (forall₂_map_dbl (fun p => ev_hornerN p ht) _)

/-! ### IAU2006 -/

/-- `iau2006()` returns expressions for the coordinates of the pole: the polynomials and the series of the terms which are not below the threshold;
the third is the series of `s + X Y / 2`, without `X Y / 2`. -/
theorem iau2006_value {TX TY TS : List (List IauRow)} (hX : ∀ rows ∈ TX, ∀ r ∈ rows, Small r.idx) (hY : ∀ rows ∈ TY, ∀ r ∈ rows, Small r.idx)
    (hS : ∀ rows ∈ TS, ∀ r ∈ rows, Small r.idx) {tm : Expr ℝ} {t th : ℝ} (ht : tm.eval v = some t) (hth : 0 ≤ th) :
    ∃ X Y S, iau2006 TX TY TS tm (some th) = .ok (X, Y, S) ∧ X.eval v = some (iauCoord polyX TX th t) ∧ Y.eval v = some (iauCoord polyY TY th t) ∧
      S.eval v = some (poly polyS t * uas2rad + poly (TS.map fun rows => iauSeries (iauArgVals t) th rows * uas2rad) t -
        iauCoord polyX TX th t * iauCoord polyY TY th t / 2) := by
  have ha := iauArgs_vals ht
  obtain ⟨i0, h0, -⟩ := seeds_ok ha (td := []) (fun a pd h => by simp at h)
  obtain ⟨ex, td1, e1, v1, i1, k1⟩ := trigSums_ok ha th hX i0 h0
  obtain ⟨ey, td2, e2, v2, i2, k2⟩ := trigSums_ok ha th hY i1 (fun a h => k1 a (h0 a h))
  obtain ⟨es, td3, e3, v3, -, -⟩ := trigSums_ok ha th hS i2 (fun a h => k2 a (k1 a (h0 a h)))
  have x1 := ev_add (eval_mulE (ev_hornerN polyX ht) (Expr.eval_dbl v arcsec2rad)) (ev_hornerE v1 ht)
  have y1 := ev_add (eval_mulE (ev_hornerN polyY ht) (Expr.eval_dbl v arcsec2rad)) (ev_hornerE v2 ht)
  have s1 := ev_sum (evalL_cons_some (eval_mulE (ev_hornerN polyS ht) (Expr.eval_dbl v uas2rad)) (evalL_cons_some (ev_hornerE v3 ht)
    (evalL_cons_some (eval_divE (ev_neg (eval_mulE x1 y1)) (Expr.eval_dbl v 2) (by norm_num)) (l := []) (xs := []) (by simp))))
  refine ⟨_, _, _, ?_, x1, y1, s1.trans ?_⟩
  · rw [iau2006]
    simp only [if_neg (not_lt.2 hth)]
    rw [e1]; simp only [Res.bind_ok]
    rw [e2]; simp only [Res.bind_ok]
    rw [e3]; simp only [Res.bind_ok]
  · simp only [List.sum_cons, List.sum_nil, iauCoord, Option.some.injEq]; ring

/-- An invalid threshold is refused. -/
theorem iau2006_threshold (TX TY TS : List (List IauRow)) (tm : Expr ℝ) :
    iau2006 TX TY TS tm none = .throw ∧ ∀ th < 0, iau2006 TX TY TS tm (some th) = .throw :=
  ⟨rfl, fun th h => by rw [iau2006]; simp [h]⟩

/-! ### Error of the truncation -/

theorem sumOver_trunc {α : Type} {keep : α → Prop} {f : α → ℝ} {b : ℝ} (h : ∀ r, ¬ keep r → |f r| ≤ b) (rows : List α) :
    |sumOver (fun _ => True) f rows - sumOver keep f rows| ≤ countOver (fun r => ¬ keep r) rows * b := by
  induction rows with
  | nil => simp [sumOver, countOver]
  | cons r rs ih =>
    rw [sumOver_pos f trivial]
    by_cases hk : keep r
    · rw [sumOver_pos f hk, add_sub_add_left_eq_sub]
      have : countOver (fun r => ¬ keep r) (r :: rs) = countOver (fun r => ¬ keep r) rs := by simp [countOver, hk]
      rwa [this]
    · rw [sumOver_neg f hk]
      have : countOver (fun r => ¬ keep r) (r :: rs) = countOver (fun r => ¬ keep r) rs + 1 := by simp [countOver, hk]
      rw [this, add_sub_assoc]
      push_cast
      have := abs_add_le (f r) (sumOver (fun _ => True) f rs - sumOver keep f rs)
      have := h r hk
      linarith

/-- The error of a series with a threshold is at most the number of the terms left out times the threshold, and the threshold zero leaves out
nothing. -/
theorem iau_truncation (as : List ℝ) {th : ℝ} (rows : List IauRow) :
    |iauSeries as 0 rows * uas2rad - iauSeries as th rows * uas2rad| ≤ countOver (fun r => ¬ th ≤ amp r.s r.c / 1e6) rows * (th * arcsec2rad) := by
  have h0 : iauSeries as 0 rows = sumOver (fun _ => True) (fun r => trigTerm r.s r.c (comb as r.idx)) rows := by
    rw [iauSeries]
    congr 1
    funext r
    exact eq_true (div_nonneg (Real.sqrt_nonneg _) (by norm_num))
  have h := sumOver_trunc (keep := fun r : IauRow => th ≤ amp r.s r.c / 1e6) (f := fun r => trigTerm r.s r.c (comb as r.idx)) (b := th * 1e6)
    (fun r hr => (trigTerm_le _ _ _).trans (by rw [not_le, div_lt_iff₀ (by norm_num)] at hr; exact hr.le)) rows
  rw [h0, iauSeries, ← sub_mul, abs_mul]
  have hu : 0 ≤ uas2rad := by rw [uas2rad]; positivity
  rw [abs_of_nonneg hu]
  calc _ ≤ _ := mul_le_mul_of_nonneg_right h hu
    _ = _ := by rw [uas_eq]; ring

/-- The same for VSOP2013. -/
theorem vsop_truncation (t : ℝ) {th : ℝ} (rows : List VsopRow) :
    |vsopSeries t 0 rows - vsopSeries t th rows| ≤ countOver (fun r => ¬ th ≤ amp r.s r.c) rows * th := by
  have h0 : vsopSeries t 0 rows = sumOver (fun _ => True) (fun r => trigTerm r.s r.c (comb (lamData.map fun l => l.1 + l.2 * t) r.idx)) rows := by
    rw [vsopSeries]
    congr 1
    funext r
    exact eq_true (Real.sqrt_nonneg _)
  rw [h0, vsopSeries]
  exact sumOver_trunc (fun r hr => (trigTerm_le _ _ _).trans (not_le.1 hr).le) rows

/-! ### VSOP2013 -/

theorem comb_map {α : Type} (f : α → ℝ) (l : List α) (ns : List Int) : comb (l.map f) ns = ((l.zip ns).map fun p => (p.2 : ℝ) * f p.1).sum := by
  rw [comb]
  congr 1
  induction l generalizing ns with
  | nil => simp
  | cons a l ih => cases ns <;> simp [ih]

theorem vsopTerm_ok {t : Expr ℝ} {x : ℝ} (ht : t.eval v = some x) (th : ℝ) (r : VsopRow) :
    (vsopTerm t th r).eval v = some (if th ≤ amp r.s r.c then trigTerm r.s r.c (comb (lamData.map fun l => l.1 + l.2 * x) r.idx) else 0) := by
  have ha : Real.sqrt (r.c * r.c + r.s * r.s) = amp r.s r.c := by rw [amp]; congr 1; ring
  rw [vsopTerm, ha]
  by_cases h : amp r.s r.c < th
  · rw [if_pos h, if_neg (not_le.2 h)]; simp
  · rw [if_neg h, if_pos (not_lt.1 h)]
    have key : Expr.evalL v ((lamData.zip r.idx).map fun p => mulE (addE (.dbl p.1.1) (mulE t (.dbl p.1.2))) (.dbl (p.2 : ℝ))) =
        some ((lamData.zip r.idx).map fun p => (p.1.1 + x * p.1.2) * (p.2 : ℝ)) :=
      Expr.evalL_eq_some.2 (forall₂_map_dbl (fun p => eval_mulE (ev_add (Expr.eval_dbl _ _) (eval_mulE ht (Expr.eval_dbl _ _))) (Expr.eval_dbl _ _)) _)
    have hs := ev_sum key
    have hc : ((lamData.zip r.idx).map fun p => (p.1.1 + x * p.1.2) * (p.2 : ℝ)).sum = comb (lamData.map fun l => l.1 + l.2 * x) r.idx := by
      rw [comb_map]; congr 1; apply List.map_congr_left; intro p _; ring
    rw [hc] at hs
    exact ev_add (eval_mulE (Expr.eval_dbl _ _) (ev_sin hs)) (eval_mulE (Expr.eval_dbl _ _) (ev_cos hs))

theorem sum_drop_zeros : ∀ {es : List (Expr ℝ)} {ys : List ℝ}, List.Forall₂ (fun e y => Expr.eval v e = some y) es ys →
    ∃ zs, Expr.evalL v (es.filter notZero) = some zs ∧ zs.sum = ys.sum := by
  intro es ys h
  induction h with
  | nil => exact ⟨[], by simp, rfl⟩
  | @cons e y es ys he _ ih =>
    obtain ⟨zs, h1, h2⟩ := ih
    by_cases hz : notZero e = true
    · rw [List.filter_cons_of_pos hz]
      exact ⟨y :: zs, evalL_cons_some he h1, by simp [h2]⟩
    · rw [List.filter_cons_of_neg hz]
      refine ⟨zs, h1, ?_⟩
      have : y = 0 := by
        cases e with
        | num n =>
          simp only [notZero, Bool.not_eq_true', Bool.not_eq_false] at hz
          rw [Expr.eval_num] at he
          have := FVal.isZero_iff.1 hz
          rw [Num.toK?, this] at he
          exact (Option.some.inj he).symm
        | _ => simp [notZero] at hz
      rw [List.sum_cons, this, h2, zero_add]

/-- `vsop2013_elliptic()` returns an expression for the series of a planet and an element: a polynomial in the time whose coefficients are the
trigonometric series of the terms which are not below the threshold. -/
theorem vsop_elliptic_value (data : Nat → Nat → List (List VsopRow)) {pl var : Nat} (hp : 1 ≤ pl ∧ pl ≤ 9) (hv : 1 ≤ var ∧ var ≤ 6) {t : Expr ℝ} {x th : ℝ}
    (ht : t.eval v = some x) (hth : 0 ≤ th) :
    ∃ e, vsopElliptic data pl var t (some th) = .ok e ∧ e.eval v = some (poly ((data pl var).map (vsopSeries x th)) x) := by
  refine ⟨hornerE ((data pl var).map (vsopChunk t th)) t, ?_, ev_hornerE (forall₂_map_dbl (fun rows => ?_) _) ht⟩
  · unfold vsopElliptic; rw [if_neg (by omega), if_neg (by omega)]; simp [hth]
  · obtain ⟨zs, h1, h2⟩ := sum_drop_zeros (forall₂_map_dbl (v := v) (fun r => vsopTerm_ok ht th r) rows)
    rw [vsopChunk, ev_sum h1, h2, vsopSeries]
    congr 1
    clear h1 h2 zs
    induction rows with
    | nil => simp [sumOver]
    | cons r rs ih =>
      by_cases hk : th ≤ amp r.s r.c
      · rw [sumOver_pos (keep := fun r : VsopRow => th ≤ amp r.s r.c) _ hk, List.map_cons, List.sum_cons, ih, if_pos hk]
      · rw [sumOver_neg (keep := fun r : VsopRow => th ≤ amp r.s r.c) _ hk, List.map_cons, List.sum_cons, ih, if_neg hk, zero_add]

/-- Invalid arguments are refused. -/
theorem vsop_elliptic_invalid (data : Nat → Nat → List (List VsopRow)) (pl var : Nat) (t : Expr ℝ) (th : Option ℝ)
    (h : ¬ (1 ≤ pl ∧ pl ≤ 9 ∧ 1 ≤ var ∧ var ≤ 6 ∧ ∃ x, th = some x ∧ 0 ≤ x)) : vsopElliptic data pl var t th = .throw := by
  unfold vsopElliptic
  by_cases h1 : pl < 1 ∨ 9 < pl
  · rw [if_pos h1]
  rw [if_neg h1]
  by_cases h2 : var < 1 ∨ 6 < var
  · rw [if_pos h2]
  rw [if_neg h2]
  cases th with
  | none => rfl
  | some x =>
    by_cases h3 : x < 0
    · simp [h3]
    · exact absurd ⟨by omega, by omega, by omega, by omega, x, rfl, not_lt.1 h3⟩ h

/-! ### ELP2000 -/

theorem elpBlock_ok {as : List (Expr ℝ)} {xs : List ℝ} (ha : List.Forall₂ (fun a x => Expr.eval v a = some x) as xs) (cosine : Bool) (th : ℝ) :
    ∀ {rows : List ElpRow}, (∀ r ∈ rows, Small r.idx) → ∀ {td : TrigDict}, Inv v td → (∀ a ∈ as, Has td a) →
      ∃ es td' ys, elpBlock as cosine th rows td = .ok (es, td') ∧ Expr.evalL v es = some ys ∧
        ys.sum = (if cosine then elpCos xs th rows else elpSin xs th rows) ∧ Inv v td' ∧ ∀ b, Has td b → Has td' b := by
  intro rows
  induction rows with
  | nil => intro _ td hi _; exact ⟨[], td, [], rfl, by simp, by simp [elpCos, elpSin, sumOver], hi, fun b hb => hb⟩
  | cons r rs ih =>
    intro hs td hi hh
    have hs' : ∀ q ∈ rs, Small q.idx := fun q hq => hs q (List.mem_cons_of_mem _ hq)
    rw [elpBlock]
    by_cases hk : |r.test| > th
    · rw [if_pos hk]
      obtain ⟨cs, td1, zs, e1, hc, hz, hi1, hk1⟩ := gather_ok ha (hs r List.mem_cons_self) hi hh
      have hc2 : ∃ ws, List.Forall₂ (CEv v) (cs ++ if r.phi ≠ 0 then [(.dbl (Real.cos r.phi), .dbl (Real.sin r.phi))] else []) ws ∧
          ws.prod = E (comb xs r.idx + r.phi) 1 := by
        have hE : E (comb xs r.idx + r.phi) 1 = E (comb xs r.idx) 1 * E r.phi 1 := by
          rw [E, E, E, ← Complex.exp_add]; congr 1; push_cast; ring
        by_cases hp : r.phi ≠ 0
        · rw [if_pos hp]
          refine ⟨zs ++ [E r.phi 1], List.rel_append hc (.cons ⟨?_, ?_⟩ .nil), by simp [hz, hE]⟩
          · rw [E_re]; simp
          · rw [E_im]; simp
        · rw [if_neg hp]
          rw [ne_eq, not_not] at hp
          exact ⟨zs, by simpa using hc, by rw [hz, hp, add_zero]⟩
      obtain ⟨ws, hc3, hw⟩ := hc2
      obtain ⟨c, e2, hv⟩ := pairwiseCmul_ok hc3
      obtain ⟨es, td', ys, h1, h2, h3, h4, h5⟩ := ih hs' hi1 (fun a h => hk1 a (hh a h))
      rw [hw] at hv
      have hv1 := hv.1
      have hv2 := hv.2
      rw [E_re] at hv1
      rw [E_im] at hv2
      have hsel : (if cosine then c.1 else c.2).eval v = some (if cosine then Real.cos (comb xs r.idx + r.phi) else Real.sin (comb xs r.idx + r.phi)) := by
        cases cosine <;> simp_all
      refine ⟨_, td', _, by rw [e1]; simp only [Res.bind_ok]; rw [e2]; simp only [Res.bind_ok]; rw [h1]; rfl,
        evalL_cons_some (eval_mulE (Expr.eval_dbl _ _) hsel) h2, ?_, h4, fun b hb => h5 b (hk1 b hb)⟩
      rw [List.sum_cons, h3, elpCos, elpSin, elpCos, elpSin, sumOver_pos (keep := fun r : ElpRow => th < |r.test|) _ hk, sumOver_pos (keep := fun r : ElpRow => th < |r.test|) _ hk]
      cases cosine <;> simp
    · rw [if_neg hk]
      obtain ⟨es, td', ys, h1, h2, h3, h4⟩ := ih hs' hi hh
      exact ⟨es, td', ys, h1, h2, by rw [h3, elpCos, elpSin, elpCos, elpSin, sumOver_neg (keep := fun r : ElpRow => th < |r.test|) _ hk, sumOver_neg (keep := fun r : ElpRow => th < |r.test|) _ hk], h4⟩

theorem elpCfs_seeded (k : ElpKind) : ∀ p ∈ elpCfs k, p ∈ elpSeeds := by
  cases k <;> simp [elpCfs, elpSeeds, elpPlanets]

/-- The sums of the three lists of terms. -/
def T3v (v : Env ℝ) [DFunc] (T : Terms3) (a b c : ℝ) : Prop :=
  (∃ ys, Expr.evalL v T.1 = some ys ∧ ys.sum = a) ∧ (∃ ys, Expr.evalL v T.2.1 = some ys ∧ ys.sum = b) ∧ ∃ ys, Expr.evalL v T.2.2 = some ys ∧ ys.sum = c

theorem elpPerts_ok {tm : Expr ℝ} {t : ℝ} (ht : tm.eval v = some t) (th : ℝ) {rows : Nat → List ElpRow} (hs : ∀ n, ∀ r ∈ rows n, Small r.idx) :
    ∀ {plan : List (Nat × ElpKind × Nat)}, (∀ p ∈ plan, p.2.2 ≤ 2) → ∀ {T : Terms3} {a b c : ℝ}, T3v v T a b c → ∀ {td : TrigDict}, Inv v td →
      (∀ p ∈ elpSeeds, Has td (hornerN p tm)) →
      ∃ T' td', elpPerts tm th rows plan T td = .ok (T', td') ∧
        T3v v T' (a + (plan.map fun p => if p.2.2 = 0 then elpSin (elpVals p.2.1 t) th (rows p.1) else 0).sum)
          (b + (plan.map fun p => if p.2.2 = 1 then elpSin (elpVals p.2.1 t) th (rows p.1) else 0).sum)
          (c + (plan.map fun p => if p.2.2 = 2 then elpSin (elpVals p.2.1 t) th (rows p.1) else 0).sum) ∧ Inv v td' ∧
        ∀ b, Has td b → Has td' b := by
  intro plan
  induction plan with
  | nil => intro _ T a b c h td hi _; exact ⟨T, td, rfl, by simpa using h, hi, fun b hb => hb⟩
  | cons p l ih =>
    intro hpw T a b c h td hi hh
    obtain ⟨n, k, pw⟩ := p
    have hargs : List.Forall₂ (fun a x => Expr.eval v a = some x) (elpArgs tm k) (elpVals k t) := by
      rw [elpVals_cfs]; exact forall₂_map_dbl (fun p => ev_hornerN p ht) _
    have hin : ∀ a ∈ elpArgs tm k, Has td a := by
      intro a ha
      obtain ⟨p, hp, rfl⟩ := List.mem_map.1 ha
      exact hh p (elpCfs_seeded k p hp)
    obtain ⟨es, td1, ys, e1, v1, s1, i1, k1⟩ := elpBlock_ok hargs false th (hs n) hi hin
    simp only [Bool.false_eq_true, if_false] at s1
    obtain ⟨⟨y0, a0, b0⟩, ⟨y1, a1, b1⟩, y2, a2, b2⟩ := h
    have hT : T3v v (T.push pw es) (a + if pw = 0 then elpSin (elpVals k t) th (rows n) else 0)
        (b + if pw = 1 then elpSin (elpVals k t) th (rows n) else 0) (c + if pw = 2 then elpSin (elpVals k t) th (rows n) else 0) := by
      have hle : pw ≤ 2 := hpw (n, k, pw) List.mem_cons_self
      match pw, hle with
      | 0, _ => exact ⟨⟨y0 ++ ys, Expr.evalL_append a0 v1, by simp [b0, s1]⟩, ⟨y1, a1, by simp [b1]⟩, y2, a2, by simp [b2]⟩
      | 1, _ => exact ⟨⟨y0, a0, by simp [b0]⟩, ⟨y1 ++ ys, Expr.evalL_append a1 v1, by simp [b1, s1]⟩, y2, a2, by simp [b2]⟩
      | 2, _ => exact ⟨⟨y0, a0, by simp [b0]⟩, ⟨y1, a1, by simp [b1]⟩, y2 ++ ys, Expr.evalL_append a2 v1, by simp [b2, s1]⟩
    obtain ⟨T', td', e2, v2, i2, k2⟩ := ih (fun p hp => hpw p (List.mem_cons_of_mem _ hp)) hT i1 (fun p hp => k1 _ (hh p hp))
    refine ⟨T', td', by rw [elpPerts, e1]; simp only [Res.bind_ok]; rw [e2], ?_, i2, fun b hb => k2 b (k1 b hb)⟩
    simpa [List.map_cons, List.sum_cons, add_assoc] using v2

theorem elpCoord_ok {tm : Expr ℝ} {t : ℝ} (ht : tm.eval v = some t) (th : ℝ) {init : List (Expr ℝ)} {ys : List ℝ} (h0 : Expr.evalL v init = some ys)
    (cosine : Bool) {main : List ElpRow} (hm : ∀ r ∈ main, Small r.idx) {rows : Nat → List ElpRow} (hs : ∀ n, ∀ r ∈ rows n, Small r.idx)
    {td : TrigDict} (hi : Inv v td) (hh : ∀ p ∈ elpSeeds, Has td (hornerN p tm)) :
    ∃ e td', elpCoord tm th init cosine main rows td = .ok (e, td') ∧
      e.eval v = some (ys.sum + (if cosine then elpCos (elpVals .main t) th main else elpSin (elpVals .main t) th main) + elpPertVal rows th t) ∧
      Inv v td' ∧ ∀ b, Has td b → Has td' b := by
  have hargs : List.Forall₂ (fun a x => Expr.eval v a = some x) (elpArgs tm .main) (elpVals .main t) := by
    rw [elpVals_cfs]; exact forall₂_map_dbl (fun p => ev_hornerN p ht) _
  have hin : ∀ a ∈ elpArgs tm .main, Has td a := by
    intro a ha
    obtain ⟨p, hp, rfl⟩ := List.mem_map.1 ha
    exact hh p (elpCfs_seeded .main p hp)
  obtain ⟨es, td1, zs, e1, v1, s1, i1, k1⟩ := elpBlock_ok hargs cosine th hm hi hin
  obtain ⟨T', td', e2, ⟨⟨y0, a0, b0⟩, ⟨y1, a1, b1⟩, y2, a2, b2⟩, i2, k2⟩ := elpPerts_ok ht th hs (plan := elpPlan) (by simp [elpPlan])
    (T := (init ++ es, [], [])) (a := (ys ++ zs).sum) (b := 0) (c := 0)
    ⟨⟨_, Expr.evalL_append h0 v1, rfl⟩, ⟨[], by simp, rfl⟩, [], by simp, rfl⟩ i1 (fun p hp => k1 _ (hh p hp))
  refine ⟨_, td', by rw [elpCoord, e1]; simp only [Res.bind_ok]; rw [e2]; rfl, ?_, i2, fun b hb => k2 b (k1 b hb)⟩
  rw [ev_hornerE (.cons (ev_sum a0) (.cons (ev_sum a1) (.cons (ev_sum a2) .nil))) ht, b0, b1, b2]
  simp only [poly, elpPlan, List.map_cons, List.map_nil, List.sum_cons, List.sum_nil, List.sum_append, s1, elpPertVal]
  simp
  ring

/-- Tables with indices which fit `std::int8_t`. -/
def ElpTables.Ok (T : ElpTables) : Prop := (∀ n, ∀ r ∈ T.main n, Small r.idx) ∧ ∀ n, ∀ r ∈ T.pert n, Small r.idx

/-- The value in terms of the rows as the code uses them. -/
theorem elp_spherical_rows {T : ElpTables} (hT : T.Ok) {tm : Expr ℝ} {t th : ℝ} (ht : tm.eval v = some t) (hth : 0 ≤ th) :
    ∃ r U V, elpSpherical T tm (some th) = .ok (r, U, V) ∧
      r.eval v = some (elpCos (elpVals .main t) th ((T.main 3).map elpMainDist) + elpPertVal (fun n => (T.pert (n + 2)).map elpPertDist) th t) ∧
      U.eval v = some (elpSin (elpVals .main t) th ((T.main 2).map elpMainAng) + elpPertVal (fun n => (T.pert (n + 1)).map elpPertAng) th t) ∧
      V.eval v = some (poly elpW1 t + elpSin (elpVals .main t) th ((T.main 1).map elpMainAng) + elpPertVal (fun n => (T.pert n).map elpPertAng) th t) := by
  have m1 : ∀ n, ∀ r ∈ (T.main n).map elpMainAng, Small r.idx := fun n r hr => by
    obtain ⟨q, hq, rfl⟩ := List.mem_map.1 hr; exact hT.1 n q hq
  have m2 : ∀ n, ∀ r ∈ (T.main n).map elpMainDist, Small r.idx := fun n r hr => by
    obtain ⟨q, hq, rfl⟩ := List.mem_map.1 hr; exact hT.1 n q hq
  have p1 : ∀ k n, ∀ r ∈ (T.pert (n + k)).map elpPertAng, Small r.idx := fun k n r hr => by
    obtain ⟨q, hq, rfl⟩ := List.mem_map.1 hr; exact hT.2 _ q hq
  have p2 : ∀ k n, ∀ r ∈ (T.pert (n + k)).map elpPertDist, Small r.idx := fun k n r hr => by
    obtain ⟨q, hq, rfl⟩ := List.mem_map.1 hr; exact hT.2 _ q hq
  obtain ⟨i0, h0, -⟩ := seeds_ok (forall₂_map_dbl (v := v) (fun p => ev_hornerN p ht) elpSeeds) (td := []) (fun a pd h => by simp at h)
  have h0' : ∀ p ∈ elpSeeds, Has ((elpSeeds.map fun p => hornerN p tm).foldl seed []) (hornerN p tm) := fun p hp => h0 _ (List.mem_map.2 ⟨p, hp, rfl⟩)
  obtain ⟨V, td1, e1, v1, i1, k1⟩ := elpCoord_ok ht th (init := [hornerN elpW1 tm])
    (evalL_cons_some (ev_hornerN elpW1 ht) (l := []) (xs := []) (by simp)) false (m1 1) (p1 0) i0 h0'
  obtain ⟨U, td2, e2, v2, i2, k2⟩ := elpCoord_ok ht th (init := []) (ys := []) (by simp) false (m1 2) (p1 1) i1 (fun p hp => k1 _ (h0' p hp))
  obtain ⟨r, td3, e3, v3, -, -⟩ := elpCoord_ok ht th (init := []) (ys := []) (by simp) true (m2 3) (p2 2) i2 (fun p hp => k2 _ (k1 _ (h0' p hp)))
  refine ⟨r, U, V, ?_, by simpa using v3, by simpa using v2, by simpa using v1⟩
  rw [elpSpherical]
  simp only [if_neg (not_lt.2 hth)]
  simp only [Nat.add_zero] at e1
  rw [e1]; simp only [Res.bind_ok]
  rw [e2]; simp only [Res.bind_ok]
  rw [e3]; simp only [Res.bind_ok]

theorem elpMainSin_rows (as : List ℝ) (th : ℝ) (rows : List ElpMain) : elpSin as th (rows.map elpMainAng) = elpMainSin as th rows := by
  rw [elpSin, elpMainSin, sumOver_map]
  simp [elpMainAng]

theorem elpMainCos_rows (as : List ℝ) (th : ℝ) (rows : List ElpMain) : elpCos as th (rows.map elpMainDist) = elpMainCos as th rows := by
  rw [elpCos, elpMainCos, sumOver_map]
  simp [elpMainDist]

theorem elpPertAng_rows (as : List ℝ) (th : ℝ) (rows : List ElpPert) : elpSin as th (rows.map elpPertAng) = elpPert 1 as th rows := by
  rw [elpSin, elpPert, sumOver_map]
  simp [elpPertAng]

theorem elpPertDist_rows (as : List ℝ) (th : ℝ) (rows : List ElpPert) : elpSin as th (rows.map elpPertDist) = elpPert elpA0 as th rows := by
  rw [elpSin, elpPert, sumOver_map]
  simp [elpPertDist]

/-- `elp2000_spherical()` returns expressions for distance, latitude and longitude of the Moon: the series of the terms above the threshold, with
the cosines of the main problem for the distance, and the mean longitude added to the longitude. -/
theorem elp_spherical_value {T : ElpTables} (hT : T.Ok) {tm : Expr ℝ} {t th : ℝ} (ht : tm.eval v = some t) (hth : 0 ≤ th) :
    ∃ r U V, elpSpherical T tm (some th) = .ok (r, U, V) ∧
      r.eval v = some (elpMainCos (elpVals .main t) th (T.main 3) + elpPerturb elpA0 (fun n => T.pert (n + 2)) th t) ∧
      U.eval v = some (elpMainSin (elpVals .main t) th (T.main 2) + elpPerturb 1 (fun n => T.pert (n + 1)) th t) ∧
      V.eval v = some (poly elpW1 t + elpMainSin (elpVals .main t) th (T.main 1) + elpPerturb 1 T.pert th t) := by
  have h := elp_spherical_rows hT ht hth
  simp only [elpPertVal, elpMainSin_rows, elpMainCos_rows, elpPertAng_rows, elpPertDist_rows] at h
  exact h

/-- An invalid threshold is refused. -/
theorem elp_threshold (T : ElpTables) (tm : Expr ℝ) : elpSpherical T tm none = .throw ∧ ∀ th < 0, elpSpherical T tm (some th) = .throw :=
  ⟨rfl, fun th h => by rw [elpSpherical]; simp [h]⟩

/-- The error of a series of perturbations is at most the number of the terms left out times the threshold times the unit. -/
theorem elp_truncation {unit : ℝ} (hu : 0 < unit) (as : List ℝ) {th : ℝ} (rows : List ElpPert) :
    |sumOver (fun _ => True) (fun r : ElpPert => r.A * Real.sin (comb as r.idx + r.phi)) rows - elpPert unit as th rows| ≤
      countOver (fun r : ElpPert => ¬ th < |r.A / unit|) rows * (th * unit) := by
  rw [elpPert]
  refine sumOver_trunc (fun r hr => ?_) rows
  rw [abs_mul]
  have h1 := not_lt.1 hr
  rw [abs_div, abs_of_pos hu, div_le_iff₀ hu] at h1
  calc |r.A| * |Real.sin (comb as r.idx + r.phi)| ≤ |r.A| * 1 := mul_le_mul_of_nonneg_left (Real.abs_sin_le_one _) (abs_nonneg _)
    _ = |r.A| := mul_one _
    _ ≤ th * unit := h1

/-! ### Time scales -/

/-- `delta_tdb_tt()`: the difference between TDB and TT for a Keplerian orbit of the Earth, which is at most 1.657 milliseconds. -/
theorem delta_tdb_tt_value {tm : Expr ℝ} {t : ℝ} (ht : tm.eval v = some t) :
    ∃ d, (deltaTdbTt tm).eval v = some d ∧
      d = 1.657e-3 * Real.sin (6.239996 + 1.99096871e-7 * t + 1.671e-2 * Real.sin (6.239996 + 1.99096871e-7 * t)) ∧ |d| ≤ 1.657e-3 := by
  have hM := ev_add (Expr.eval_dbl v 6.239996) (eval_mulE (Expr.eval_dbl v 1.99096871e-7) ht)
  refine ⟨_, eval_mulE (Expr.eval_dbl v _) (ev_sin (ev_add hM (eval_mulE (Expr.eval_dbl v _) (ev_sin hM)))), rfl, ?_⟩
  rw [abs_mul, abs_of_pos (by norm_num)]
  calc _ ≤ (1.657e-3 : ℝ) * 1 := mul_le_mul_of_nonneg_left (Real.abs_sin_le_one _) (by norm_num)
    _ = _ := mul_one _

end

/-! ### The hypotheses can be met -/

local instance theoryNone : DFunc := ⟨none⟩

/-- Two terms of the table of `X`, with a threshold which leaves out the second. -/
example : ∃ X Y S, iau2006 [[⟨-6844318.44, 1328.67, [0, 0, 0, 0, 1, 0, 0, 0, 0, 0, 0, 0, 0, 0]⟩, ⟨0.1, 0.2, [0, 0, 2, -2, 2, 0, 0, 0, 0, 0, 0, 0, 0, 0]⟩]] [] []
    (.var "t") (some 1) = .ok (X, Y, S) ∧ X.eval ⟨fun _ => 0, fun _ => 0, 0⟩ = some (iauCoord polyX
      [[⟨-6844318.44, 1328.67, [0, 0, 0, 0, 1, 0, 0, 0, 0, 0, 0, 0, 0, 0]⟩, ⟨0.1, 0.2, [0, 0, 2, -2, 2, 0, 0, 0, 0, 0, 0, 0, 0, 0]⟩]] 1 0) := by
  obtain ⟨X, Y, S, h1, h2, -⟩ := iau2006_value (v := ⟨fun _ => 0, fun _ => 0, 0⟩)
    (TX := [[⟨-6844318.44, 1328.67, [0, 0, 0, 0, 1, 0, 0, 0, 0, 0, 0, 0, 0, 0]⟩, ⟨0.1, 0.2, [0, 0, 2, -2, 2, 0, 0, 0, 0, 0, 0, 0, 0, 0]⟩]])
    (TY := []) (TS := []) (by simp [Small]) (by simp) (by simp) (tm := .var "t") (t := 0) (th := 1) (by simp) (by norm_num)
  exact ⟨X, Y, S, h1, h2⟩

/-- A table of VSOP2013. -/
example : ∃ e, vsopElliptic (fun _ _ => [[⟨0.1, 0.2, [1, -1, 0, 0, 0, 0, 0, 0, 0, 2, 0, 0, 0, 0, 0, 0, 0]⟩]]) 3 2 (.var "t") (some 0.01) = .ok e :=
  let ⟨e, h, _⟩ := vsop_elliptic_value (v := ⟨fun _ => 0, fun _ => 0, 0⟩) (fun _ _ => [[⟨0.1, 0.2, [1, -1, 0, 0, 0, 0, 0, 0, 0, 2, 0, 0, 0, 0, 0, 0, 0]⟩]])
    (pl := 3) (var := 2) (by simp) (by simp) (t := .var "t") (x := 0) (th := 0.01) (by simp) (by norm_num)
  ⟨e, h⟩

/-- Tables of ELP2000. -/
example : ElpTables.Ok ⟨fun _ => [⟨22639.55, 0, 0, 412529.61, 0, 0, [0, 0, 1, 0]⟩], fun _ => [⟨270, 0.00003, [0, 0, 0, 1, -2]⟩]⟩ :=
  ⟨by simp [Small], by simp [Small]⟩

end Heyoka.Theory

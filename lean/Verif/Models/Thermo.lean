import Verif.Models.Ffnn
import Verif.Models.Spec
import Mathlib.Analysis.SpecialFunctions.Trigonometric.DerivHyp

/-!
# Thermospheric density

`src/model/nrlmsise00_tn.cpp`, `src/model/jb08_tn.cpp` and the corresponding headers. The weights and the biases of the networks
(the tables `flattened_nw`) and the rounded constants `2π`, `2π / 365.25`, `π / 2` are parameters of the model.
-/

set_option linter.unusedSectionVars false

namespace Heyoka.Models

open Heyoka.Sym

/-- The constants `two_pi<double>()`, `two_pi<double>() / 365.25` and `half_pi<double>()` (`src/model/nrlmsise00_tn.cpp` 447-449, 458-459;
`src/model/jb08_tn.cpp` 481-484, 490-491). -/
structure TnConsts (K : Type) where
  twoPi : K
  year : K
  halfPi : K

/-- `best_global_fit` (`src/model/nrlmsise00_tn.cpp` 36-39); the decimal values are not rounded. -/
def nrlFit : List ℚ :=
  [4.1363310029108843e-07, 4.0000086372179092e-08, 2.0884869739603035e-13, 2.3135716566189760e-09,
    5.5489346370934431e-02, 3.8843141843337967e-02, 5.4930843422492867e-03, 2.0221186124045831e-02,
    1.6037537639329329e+01, 5.2566535061531994e+01, 8.8684196024896238e+01, 2.6651672474562414e+01]

/-- `best_global_fit` (`src/model/jb08_tn.cpp` 34-37); the decimal values are not rounded. -/
def jbFit : List ℚ :=
  [4.8324408000550755e-14, 1.1317738349607241e-10, 2.4103868610236823e-08, 4.1365331722514101e-09,
    3.6156275901554277e-03, 1.7183286142392017e-02, 5.1228686578056189e-02, 2.6315796482795122e-02,
    1.5394267177079062e+01, 9.9995283706628030e+01, 9.0742221828371825e+01, 5.7489799315626591e+01]

section
variable {K : Type} [Field K] [LinearOrder K] [FloorRing K] [Fold K]

/-- `normalize_min_max()` (`src/model/nrlmsise00_tn.cpp` 405-408), `normalize_min_max_jb08()` (`src/model/jb08_tn.cpp` 442-445). -/
def normMM (e : Expr K) (lo hi : K) : Expr K :=
  subE (divE (mulE (.dbl 2) (subE e (.dbl lo))) (.dbl (hi - lo))) (.dbl 1)

/-- `rho_approximation()` (`src/model/nrlmsise00_tn.cpp` 410-420), `rho_approximation_jb08()` (`src/model/jb08_tn.cpp` 447-457); there are
twelve parameters. -/
def rhoApprox (h : Expr K) (p : List (Expr K)) : Expr K :=
  sumE ((List.range 4).map fun i => mulE (p.getD i (.dbl 0))
    (unaryE .exp (mulE (negE (subE h (p.getD (i + 8) (.dbl 0)))) (p.getD (i + 4) (.dbl 0)))))

/-- The scaling of the last four outputs (`src/model/nrlmsise00_tn.cpp` 472-475). -/
def scaleGammas (d : List (Expr K)) : List (Expr K) :=
  (List.range d.length).map fun i =>
    if 8 ≤ i ∧ i < 12 then mulE (d.getD i (.dbl 0)) (.dbl 5) else d.getD i (.dbl 0)

/-- The corrections of the parameters of the fit (`src/model/nrlmsise00_tn.cpp` 478-481, `src/model/jb08_tn.cpp` 512-515). -/
def tnParams (fit : List ℚ) (d : List (Expr K)) : List (Expr K) :=
  (List.range d.length).map fun i => mulE (.dbl ((fit.getD i 0 : ℚ) : K)) (addE (.dbl 1) (d.getD i (.dbl 0)))

/-- The network (`src/model/nrlmsise00_tn.cpp` 468-469, `src/model/jb08_tn.cpp` 507-508). -/
def tnNet (wb : List K) (inp : List (Expr K)) : Res (List (Expr K)) :=
  ffnn inp [32, 32] 12 [some (unaryE .tanh), some (unaryE .tanh), some (unaryE .tanh)] (some (wb.map Expr.dbl))

/-- The inputs for the geographic position and the time (`src/model/nrlmsise00_tn.cpp` 445-463, `src/model/jb08_tn.cpp` 479-495). -/
def tnBase (c : TnConsts K) (lat lon doy : Expr K) : List (Expr K) :=
  let sid := mulE doy (.dbl c.twoPi)
  let yr := mulE doy (.dbl c.year)
  [unaryE (.sin false) lon, unaryE (.cos false) lon, normMM lat (-c.halfPi) c.halfPi, unaryE (.sin false) sid,
    unaryE (.cos false) sid, unaryE (.sin false) yr, unaryE (.cos false) yr]

/-- `nrlmsise00_tn_impl()` (`src/model/nrlmsise00_tn.cpp` 433-485). -/
def nrlImpl (c : TnConsts K) (wb : List K) (geodetic : List (Expr K)) (f107 f107a ap doy : Expr K) : Res (Expr K) :=
  match geodetic with
  | [h, lat, lon] =>
    (tnNet wb (tnBase c lat lon doy ++ [normMM f107 60 266, normMM f107a 60 170, normMM ap 0 110])).bind fun d =>
      .ok (rhoApprox h (tnParams nrlFit (scaleGammas d)))
  | _ => .throw

/-- The keyword arguments of `nrlmsise00_tn()` apart from `geodetic` (`include/heyoka/model/nrlmsise00_tn.hpp` 47-52). -/
structure NrlArgs (K : Type) where
  f107 : Expr K
  f107a : Expr K
  ap : Expr K
  timeExpr : Expr K

/-- `model::nrlmsise00_tn()` (`include/heyoka/model/nrlmsise00_tn.hpp` 38-55, 75-80). -/
def nrlTn (c : TnConsts K) (wb : List K) (geodetic : List (Expr K)) (a : NrlArgs K) : Res (Expr K) :=
  nrlImpl c wb geodetic a.f107 a.f107a a.ap a.timeExpr

/-- `jb08_tn_impl()` (`src/model/jb08_tn.cpp` 467-519). -/
def jbImpl (c : TnConsts K) (wb : List K) (geodetic : List (Expr K))
    (f107 f107a s107 s107a m107 m107a y107 y107a dDstdT doy : Expr K) : Res (Expr K) :=
  match geodetic with
  | [h, lat, lon] =>
    (tnNet wb (tnBase c lat lon doy ++ [normMM f107 60 266, normMM f107a 60 170, normMM s107 50 190, normMM s107a 50 170,
      normMM m107 50 190, normMM m107a 50 160, normMM y107 50 180, normMM y107a 50 170, normMM dDstdT 0 390])).bind fun d =>
      .ok (rhoApprox h (tnParams jbFit d))
  | _ => .throw

/-- The keyword arguments of `jb08_tn()` apart from `geodetic` (`include/heyoka/model/jb08_tn.hpp` 47-58). -/
structure JbArgs (K : Type) where
  f107a : Expr K
  f107 : Expr K
  s107a : Expr K
  s107 : Expr K
  m107a : Expr K
  m107 : Expr K
  y107a : Expr K
  y107 : Expr K
  dDstdT : Expr K
  timeExpr : Expr K

/-- `model::jb08_tn()` (`include/heyoka/model/jb08_tn.hpp` 38-63, 90-95): the tuple of the arguments begins with the averages, while the
parameters of `jb08_tn_impl()` begin with the daily values. -/
def jbTn (c : TnConsts K) (wb : List K) (geodetic : List (Expr K)) (a : JbArgs K) : Res (Expr K) :=
  jbImpl c wb geodetic a.f107a a.f107 a.s107a a.s107 a.m107a a.m107 a.y107a a.y107 a.dDstdT a.timeExpr

end

/-! ### Specification -/

/-- The affine map of `[lo, hi]` onto `[-1, 1]`. -/
noncomputable def rescale (lo hi x : ℝ) : ℝ := (x - (lo + hi) / 2) / ((hi - lo) / 2)

/-- The sum of four exponentials of the altitude `h`, with amplitudes `α`, decay rates `β` and reference altitudes `γ`. -/
noncomputable def expDensity (α β γ : Fin 4 → ℝ) (h : ℝ) : ℝ := ∑ i, α i * Real.exp (-(β i * (h - γ i)))

/-- The density for the parameters `fit`, corrected by the relative amounts `δ`; the corrections of the reference altitudes are
multiplied by `m`. -/
noncomputable def tnDensity (fit δ : Nat → ℝ) (m h : ℝ) : ℝ :=
  expDensity (fun i => fit i * (1 + δ i)) (fun i => fit (4 + i) * (1 + δ (4 + i))) (fun i => fit (8 + i) * (1 + m * δ (8 + i))) h

/-- The outputs of a network with two hidden layers of 32 neurons and `tanh` as activation function, for the inputs `xs`; `w` are the
weights, layer by layer and row by row, followed by the biases. -/
noncomputable def tnNeuron (w xs : List ℝ) (i : Nat) : ℝ :=
  let n : Nat → Nat := fun k => ([xs.length, 32, 32, 12] : List Nat).getD k 0
  neuron n (fun _ => Real.tanh) (fun l i j => w.getD (nWeights n l + i * n l + j) 0)
    (fun l i => w.getD (nWeights n 3 + nBiases n l + i) 0) (fun j => xs.getD j 0) 3 i

/-- The inputs for the position and the time. -/
noncomputable def tnBaseVal (c : TnConsts ℝ) (lat lon doy : ℝ) : List ℝ :=
  [Real.sin lon, Real.cos lon, lat / c.halfPi, Real.sin (doy * c.twoPi), Real.cos (doy * c.twoPi), Real.sin (doy * c.year),
    Real.cos (doy * c.year)]

/-! ### Lemmas -/

section
variable [DFunc] {v : Env ℝ}

theorem ev_normMM {e : Expr ℝ} {x lo hi : ℝ} (h : e.eval v = some x) (hne : hi - lo ≠ 0) :
    (normMM e lo hi).eval v = some (rescale lo hi x) := by
  have := ev_sub (eval_divE (eval_mulE (Expr.eval_dbl v 2) (ev_sub h (Expr.eval_dbl v lo))) (Expr.eval_dbl v (hi - lo)) hne)
    (Expr.eval_dbl v 1)
  rw [normMM, this, rescale]
  congr 1
  field_simp
  ring

theorem rescale_sym (p x : ℝ) : rescale (-p) p x = x / p := by
  unfold rescale
  congr 1 <;> ring

theorem ev_exp {a : Expr ℝ} {x : ℝ} (ha : a.eval v = some x) : (unaryE .exp a).eval v = some (Real.exp x) :=
  ev_unary (by simp) (by simp) ha (by simp [realApp])

theorem ev_rhoApprox {h : Expr ℝ} {p : List (Expr ℝ)} {y : ℝ} {q : Nat → ℝ} (hh : h.eval v = some y)
    (hp : ∀ i < 12, (p.getD i (.dbl 0)).eval v = some (q i)) :
    (rhoApprox h p).eval v = some (expDensity (fun i => q i) (fun i => q (4 + i)) (fun i => q (8 + i)) y) := by
  rw [rhoApprox, ev_sum (evalL_map_range (g := fun i => q i * Real.exp (-(y - q (i + 8)) * q (i + 4))) fun i hi =>
    eval_mulE (hp i (by omega)) (ev_exp (eval_mulE (ev_neg (ev_sub hh (hp (i + 8) (by omega)))) (hp (i + 4) (by omega)))))]
  rw [expDensity, Fin.sum_univ_four]
  simp [List.range_succ, add_assoc, mul_comm, ← mul_neg]

theorem getD_map_range {n i : Nat} (f : Nat → Expr ℝ) (hi : i < n) : ((List.range n).map f).getD i (.dbl 0) = f i := by
  simp [List.getD_eq_getElem?_getD, List.getElem?_map, List.getElem?_range hi]

theorem ev_tnParams {fit : List ℚ} {d : List (Expr ℝ)} {δ : Nat → ℝ} (hl : d.length = 12)
    (hd : ∀ i < 12, (d.getD i (.dbl 0)).eval v = some (δ i)) :
    ∀ i < 12, ((tnParams fit d).getD i (.dbl 0)).eval v = some (((fit.getD i 0 : ℚ) : ℝ) * (1 + δ i)) := by
  intro i hi
  rw [tnParams, hl, getD_map_range _ hi]
  exact eval_mulE (Expr.eval_dbl _ _) (ev_add (Expr.eval_dbl _ _) (hd i hi))

theorem ev_scaleGammas {d : List (Expr ℝ)} {δ : Nat → ℝ} (hl : d.length = 12)
    (hd : ∀ i < 12, (d.getD i (.dbl 0)).eval v = some (δ i)) :
    ∀ i < 12, ((scaleGammas d).getD i (.dbl 0)).eval v = some (if 8 ≤ i then δ i * 5 else δ i) := by
  intro i hi
  rw [scaleGammas, hl, getD_map_range _ hi]
  by_cases h : 8 ≤ i
  · rw [if_pos ⟨h, hi⟩, if_pos h]
    exact eval_mulE (hd i hi) (Expr.eval_dbl _ _)
  · rw [if_neg (by omega), if_neg h]
    exact hd i hi

theorem tanh_gt (x : ℝ) : -1 < Real.tanh x := by
  rw [Real.tanh_eq_sinh_div_cosh, lt_div_iff₀ (Real.cosh_pos x)]
  have := Real.exp_pos x
  rw [← Real.cosh_add_sinh] at this
  linarith

theorem tnNeuron_gt (w xs : List ℝ) (i : Nat) : 0 < 1 + tnNeuron w xs i := by
  have : -1 < tnNeuron w xs i := tanh_gt _
  linarith

theorem expDensity_pos {α β γ : Fin 4 → ℝ} (hα : ∀ i, 0 < α i) (h : ℝ) : 0 < expDensity α β γ h :=
  Finset.sum_pos (fun i _ => mul_pos (hα i) (Real.exp_pos _)) ⟨0, Finset.mem_univ _⟩

theorem expDensity_anti {α β γ : Fin 4 → ℝ} (hα : ∀ i, 0 < α i) (hβ : ∀ i, 0 < β i) : StrictAnti (expDensity α β γ) := by
  intro h h' hlt
  refine Finset.sum_lt_sum_of_nonempty ⟨0, Finset.mem_univ _⟩ fun i _ => ?_
  refine mul_lt_mul_of_pos_left (Real.exp_lt_exp.2 ?_) (hα i)
  have := mul_lt_mul_of_pos_left hlt (hβ i)
  linarith

theorem tnDensity_good {fit δ : Nat → ℝ} {m : ℝ} (hf : ∀ i < 8, 0 < fit i) (hδ : ∀ i, 0 < 1 + δ i) :
    (∀ h, 0 < tnDensity fit δ m h) ∧ StrictAnti (tnDensity fit δ m) := by
  have hα : ∀ i : Fin 4, 0 < fit i * (1 + δ i) := fun i => mul_pos (hf i (by omega)) (hδ i)
  have hβ : ∀ i : Fin 4, 0 < fit (4 + i) * (1 + δ (4 + i)) := fun i => mul_pos (hf _ (by omega)) (hδ _)
  exact ⟨fun h => expDensity_pos hα h, expDensity_anti hα hβ⟩

theorem fit_pos {fit : List ℚ} (h : ∀ i < 8, 0 < fit.getD i 0) : ∀ i < 8, (0 : ℝ) < ((fit.getD i 0 : ℚ) : ℝ) :=
  fun i hi => by exact_mod_cast h i hi

theorem nrlFit_pos : ∀ i < 8, 0 < nrlFit.getD i 0 := by decide +kernel
theorem jbFit_pos : ∀ i < 8, 0 < jbFit.getD i 0 := by decide +kernel

theorem ev_tnBase {c : TnConsts ℝ} (hc : c.halfPi ≠ 0) {lat lon doy : Expr ℝ} {φ l t : ℝ} (h1 : lat.eval v = some φ)
    (h2 : lon.eval v = some l) (h3 : doy.eval v = some t) : Expr.evalL v (tnBase c lat lon doy) = some (tnBaseVal c φ l t) := by
  have e1 := ev_normMM (lo := -c.halfPi) (hi := c.halfPi) h1 (by
    intro h
    apply hc
    linarith)
  have e2 := eval_mulE h3 (Expr.eval_dbl v c.twoPi)
  have e3 := eval_mulE h3 (Expr.eval_dbl v c.year)
  rw [rescale_sym] at e1
  simp [tnBase, tnBaseVal, e1, ev_sin h2, ev_cos h2, ev_sin e2, ev_cos e2, ev_sin e3, ev_cos e3]

end

end Heyoka.Models

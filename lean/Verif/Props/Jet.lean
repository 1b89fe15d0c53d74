import Verif.Taylor.DecFinal
import Verif.Taylor.DecSize

/-!
# C18: the jet is the formal solution of the equations

`SysReg` (`Verif/Taylor/DecFinal.lean`) collects what is assumed of an expression along the curves `x`, one for each
state variable: all its variables are state variables, and every function in it is defined near `t0`, with `t0` not
a singular point of it (`NodeReg`, `RegAt`). `av E e` is the value of the expression `e` as a function of the time,
`tc f t0 k` the coefficient of order `k` of the Taylor series of `f` at `t0`.
-/

set_option linter.unusedSectionVars false

open Filter Topology

namespace Heyoka.Taylor

open Heyoka.Sym

variable [FmtName ℝ] {P : Fn ℝ → Prop}

/-- The curves `x` satisfy the equations `names[i]' = rhs[i]` at `t0` as power series, below the order `N`: the
coefficients of the derivative of the curve are those of the right-hand side along the curves. -/
def FormalSolution (names : List String) (rhs : List (Expr ℝ)) (x : String → ℝ → ℝ) (par : ℕ → ℝ) (t0 : ℝ) (N : ℕ) :
    Prop :=
  ∀ (i : ℕ) (s : String) (e : Expr ℝ), names[i]? = some s → rhs[i]? = some e → ∀ k < N,
    ((k : ℝ) + 1) * tc (x s) t0 (k + 1) = tc (av (curveEnv x par) e) t0 k

/-- The curves `x` are a solution of the equations near `t0`. -/
def Solution (names : List String) (rhs : List (Expr ℝ)) (x : String → ℝ → ℝ) (par : ℕ → ℝ) (t0 : ℝ) : Prop :=
  ∀ (i : ℕ) (s : String) (e : Expr ℝ), names[i]? = some s → rhs[i]? = some e →
    ∀ᶠ t in 𝓝 t0, HasDerivAt (x s) (av (curveEnv x par) e t) t

/-- The jet of the state variables and of the extra functions: for each order the coefficients. -/
noncomputable def seriesOf (names : List String) (svf : List (Expr ℝ)) (x : String → ℝ → ℝ) (par : ℕ → ℝ) (t0 : ℝ)
    (order : ℕ) : List (List (V ℝ)) :=
  (List.range (order + 1)).map fun o =>
    names.map (fun s => V.fin (tc (x s) t0 o)) ++ svf.map fun e => V.fin (tc (av (curveEnv x par) e) t0 o)

/-- A solution of the equations is a solution as power series, at all orders. -/
theorem Solution.formal {names : List String} {rhs : List (Expr ℝ)} {x : String → ℝ → ℝ} {par : ℕ → ℝ} {t0 : ℝ}
    (h : Solution names rhs x par t0) (N : ℕ) : FormalSolution names rhs x par t0 N := by
  intro i s e hs he k _
  rw [← tc_deriv]
  refine tc_congr ?_ k
  filter_upwards [h i s e hs he] with t ht
  exact ht.deriv

/-- C18. For every system of equations, every graph of function objects representing it, and all curves along which
the expressions are regular: the decomposition is produced (if its indices fit in 32 bits), and for every order the
jet computed from it and from the state at `t0` consists of the coefficients of the curves, if they are a formal
solution, and of the coefficients of the extra functions along the solution. -/
theorem jet_is_formal_solution (hN : NameSound P) (hR : RewClosed P) (hC : HidClosed P) (hI : P .numId)
    (share : List (Expr ℝ) → List (Sym.Node ℝ)) (names : List String) (rhs svf : List (Expr ℝ)) (hne : names ≠ [])
    (hnd : names.Nodup) (hlen : rhs.length = names.length)
    (hsh : Represents (share (sysExprs names (rhs ++ svf))) (sysExprs names (rhs ++ svf)))
    (hsvf : ∀ e ∈ svf, (rewritesTaylor e).isNum = false ∧ ∀ i, rewritesTaylor e ≠ .par i)
    (x : String → ℝ → ℝ) (par : ℕ → ℝ) (t0 : ℝ) (hx : ∀ s ∈ names, SmoothAt (x s) t0)
    (hes : ∀ e ∈ rhs ++ svf, SysReg P names x par t0 e) :
    ∃ N dc0 outs0, (∀ fuel, N ≤ fuel → decSys fuel share names (rhs ++ svf) = some (.ok (dc0, outs0))) ∧
      (dc0.length + names.length ≤ 2 ^ 32 → ∃ N' dc is,
        (∀ fuel, N' ≤ fuel → decomposeSys fuel share names rhs svf = some (.ok (dc, is))) ∧
        ∀ order, 0 < order → FormalSolution names rhs x par t0 order →
          jet par t0 names.length dc is order (names.map fun s => x s t0) =
            .ok (seriesOf names svf x par t0 order)) := by
  obtain ⟨N, dc0, outs0, h1, h2⟩ := rawSys_ok hne hnd hC hR hlen hes hsvf hsh
  refine ⟨N, dc0, outs0, h1, fun hb => ?_⟩
  obtain ⟨dc1, is1, F1, h3, h4, h5⟩ := h2 hb
  obtain ⟨h6, h7⟩ := simplifySys_ok hN hR hI h5 h4 (dc1.length + 1)
  obtain ⟨r, hr⟩ := h7 (le_refl _)
  obtain ⟨F, dc, is, rfl, h8, h9, h10⟩ := h6 r hr
  refine ⟨max N (dc1.length + 1), dc, is, fun fuel hf => ?_, fun order ho hode => ?_⟩
  · rw [decomposeSys, h3 fuel (by omega)]
    exact simplifySys_mono hr (by omega)
  · have hname : ∀ i < names.length, idxCurve names x i = x (names.getD i "") := fun i _ => rfl
    have hal : Along F t0 par names.length order dc := by
      refine h9.along (List.length_pos_iff.2 hne) (by omega) h10 ?_ ?_
      · intro i hi
        rw [hname i hi, List.getD_eq_getElem?_getD, List.getElem?_eq_getElem hi]
        exact hx _ (List.getElem_mem hi)
      · intro i hi k hk
        rw [hname i hi, List.getD_eq_getElem?_getD, List.getElem?_eq_getElem hi]
        have hri : rhs[i]? = some (rhs[i]'(by omega)) := by rw [List.getElem?_eq_getElem]
        rw [rhsCurve, hri]
        exact hode i _ _ (List.getElem?_eq_getElem hi) hri k hk
    have hst : ∀ (i : ℕ) (y : ℝ), (names.map fun s => x s t0)[i]? = some y → F i t0 = y := by
      intro i y hy
      rw [List.getElem?_map, Option.map_eq_some_iff] at hy
      obtain ⟨s, hs, rfl⟩ := hy
      have hi := (List.getElem?_eq_some_iff.1 hs).1
      rw [(h9.state i hi).self_of_nhds, hname i hi, List.getD_eq_getElem?_getD, hs]
      rfl
    have hsv : ∀ u ∈ is, u < dc.length - names.length := by
      intro u hu
      obtain ⟨i, hi⟩ := List.mem_iff_getElem?.1 hu
      have hl := (List.getElem?_eq_some_iff.1 hi).1
      have := (List.forall₂_iff_get.1 h9.svf).2 i hl (by rw [← h9.svf.length_eq]; exact hl)
      have he : is.get ⟨i, hl⟩ = u := (List.getElem?_eq_some_iff.1 hi).2
      rw [he] at this
      exact this.1
    rw [jet_ok hal ho (by simp) hst hsv, seriesOf]
    congr 1
    refine List.map_congr_left fun o _ => ?_
    rw [List.map_append]
    congr 1
    · refine List.ext_getElem? fun i => ?_
      rcases Nat.lt_or_ge i names.length with hi | hi
      · rw [List.getElem?_map, List.getElem?_map, List.getElem?_range hi, List.getElem?_eq_getElem hi]
        simp only [Option.map_some]
        rw [tc_congr (h9.state i hi), hname i hi, List.getD_eq_getElem?_getD, List.getElem?_eq_getElem hi]
        rfl
      · rw [List.getElem?_eq_none (by simpa using hi), List.getElem?_eq_none (by simpa using hi)]
    · have h11 := h9.svf
      rw [List.forall₂_map_right_iff] at h11
      clear * - h11
      induction h11 with
      | nil => rfl
      | cons h _ ih => rw [List.map_cons, List.map_cons, ih, tc_congr h.2]

/-- C18 for the functions of the library and for an actual solution of the equations: the jet of every order is the
beginning of the Taylor series of the solution, and of the extra functions along it. -/
theorem jet_is_taylor_series (share : List (Expr ℝ) → List (Sym.Node ℝ)) (names : List String)
    (rhs svf : List (Expr ℝ)) (hne : names ≠ []) (hnd : names.Nodup) (hlen : rhs.length = names.length)
    (hsh : Represents (share (sysExprs names (rhs ++ svf))) (sysExprs names (rhs ++ svf)))
    (hsvf : ∀ e ∈ svf, (rewritesTaylor e).isNum = false ∧ ∀ i, rewritesTaylor e ≠ .par i)
    (x : String → ℝ → ℝ) (par : ℕ → ℝ) (t0 : ℝ) (hx : ∀ s ∈ names, SmoothAt (x s) t0)
    (hes : ∀ e ∈ rhs ++ svf, SysReg Fn.builtin names x par t0 e) (hsol : Solution names rhs x par t0) :
    ∃ N dc0 outs0, (∀ fuel, N ≤ fuel → decSys fuel share names (rhs ++ svf) = some (.ok (dc0, outs0))) ∧
      (dc0.length + names.length ≤ 2 ^ 32 → ∃ N' dc is,
        (∀ fuel, N' ≤ fuel → decomposeSys fuel share names rhs svf = some (.ok (dc, is))) ∧
        ∀ order, 0 < order → jet par t0 names.length dc is order (names.map fun s => x s t0) =
          .ok (seriesOf names svf x par t0 order)) := by
  obtain ⟨N, dc0, outs0, h1, h2⟩ := jet_is_formal_solution builtin_name_sound builtin_rewClosed
    (by constructor <;> intros <;> trivial) trivial share names rhs svf hne hnd hlen hsh hsvf x par t0 hx hes
  refine ⟨N, dc0, outs0, h1, fun hb => ?_⟩
  obtain ⟨N', dc, is, h3, h4⟩ := h2 hb
  exact ⟨N', dc, is, h3, fun order ho => h4 order ho (hsol.formal order)⟩

/-- The size of the decomposition: at most five elements for every function of the rewritten expressions. -/
theorem sys_size_bound {share : List (Expr ℝ) → List (Sym.Node ℝ)} {names : List String} {es : List (Expr ℝ)}
    (hsh : Represents (share (sysExprs names es)) (sysExprs names es)) {fuel : ℕ} {dc : TDc ℝ} {outs : List (Expr ℝ)}
    (h : decSys fuel share names es = some (.ok (dc, outs))) :
    dc.length ≤ names.length + 5 * Expr.fnCountL (sysExprs names es) := by
  obtain ⟨_, _, _, _, _, hs⟩ := hsh
  exact decSys_size hs h

/-- The formal solution is unique: two formal solutions through the same state have the same coefficients, up to the
order, and so have the extra functions along them. (It is computed by the jet.) -/
theorem formal_solution_unique (hN : NameSound P) (hR : RewClosed P) (hC : HidClosed P) (hI : P .numId)
    (names : List String) (rhs svf : List (Expr ℝ)) (hne : names ≠ []) (hnd : names.Nodup)
    (hlen : rhs.length = names.length)
    (hsvf : ∀ e ∈ svf, (rewritesTaylor e).isNum = false ∧ ∀ i, rewritesTaylor e ≠ .par i)
    (x y : String → ℝ → ℝ) (par : ℕ → ℝ) (t0 : ℝ) (hx : ∀ s ∈ names, SmoothAt (x s) t0)
    (hy : ∀ s ∈ names, SmoothAt (y s) t0) (hes : ∀ e ∈ rhs ++ svf, SysReg P names x par t0 e)
    (hes' : ∀ e ∈ rhs ++ svf, SysReg P names y par t0 e) (hxy : ∀ s ∈ names, x s t0 = y s t0) (order : ℕ)
    (ho : 0 < order) (hfx : FormalSolution names rhs x par t0 order) (hfy : FormalSolution names rhs y par t0 order)
    (hsize : 2 * names.length + 5 * Expr.fnCountL (sysExprs names (rhs ++ svf)) ≤ 2 ^ 32) :
    seriesOf names svf x par t0 order = seriesOf names svf y par t0 order := by
  obtain ⟨share, hshare⟩ := exists_share
  obtain ⟨N, dc0, outs0, h1, h2⟩ := jet_is_formal_solution hN hR hC hI share names rhs svf hne hnd hlen (hshare _)
    hsvf x par t0 hx hes
  obtain ⟨M, dc1, outs1, g1, g2⟩ := jet_is_formal_solution hN hR hC hI share names rhs svf hne hnd hlen (hshare _)
    hsvf y par t0 hy hes'
  obtain ⟨N', dc, is, h3, h4⟩ := h2 (by have := sys_size_bound (hshare _) (h1 N (le_refl _)); omega)
  obtain ⟨M', dc', is', g3, g4⟩ := g2 (by have := sys_size_bound (hshare _) (g1 M (le_refl _)); omega)
  have he := h3 (max N' M') (le_max_left _ _)
  rw [g3 (max N' M') (le_max_right _ _)] at he
  injection he with he
  injection he with he
  injection he with e1 e2
  subst e1 e2
  have h5 := h4 order ho hfx
  rw [show names.map (fun s => x s t0) = names.map fun s => y s t0 from List.map_congr_left hxy, g4 order ho hfy] at h5
  injection h5 with h5
  exact h5.symm

/-- The errors: an extra function which is a number or a parameter is refused. -/
theorem decompose_sys_throws (hR : RewClosed P) (hC : HidClosed P)
    (share : List (Expr ℝ) → List (Sym.Node ℝ)) (names : List String) (rhs svf : List (Expr ℝ)) (hne : names ≠ [])
    (hnd : names.Nodup) (hlen : rhs.length = names.length)
    (hsh : Represents (share (sysExprs names (rhs ++ svf))) (sysExprs names (rhs ++ svf)))
    (hsvf : ∃ e ∈ svf, (rewritesTaylor e).isNum = true ∨ ∃ i, rewritesTaylor e = .par i)
    (x : String → ℝ → ℝ) (par : ℕ → ℝ) (t0 : ℝ) (hes : ∀ e ∈ rhs ++ svf, SysReg P names x par t0 e) :
    ∃ N, ∀ fuel, N ≤ fuel → decomposeSys fuel share names rhs svf = some .throw := by
  obtain ⟨N, dc, outs, h1, h2, h3, h4, h5, h6⟩ := decSys_ok hne hnd hC hR hes hsh
  refine ⟨N, fun fuel hf => ?_⟩
  have h7 : svfIndices (outs.drop rhs.length) = .throw := by
    refine svfIndices_throw (fun a ha => h4 a (List.mem_of_mem_drop ha)) ?_
    obtain ⟨e, he, hee⟩ := hsvf
    obtain ⟨i, hi⟩ := List.mem_iff_getElem?.1 he
    have hil := (List.getElem?_eq_some_iff.1 hi).1
    rw [List.length_append] at h3
    have h8 := (List.forall₂_iff_get.1 h5).2 (rhs.length + i) (by omega) (by simp; omega)
    simp only [List.get_eq_getElem] at h8
    rw [List.getElem_append_right (by omega)] at h8
    simp only [Nat.add_sub_cancel_left, (List.getElem?_eq_some_iff.1 hi).2] at h8
    have h9 := h8.2 hee
    refine ⟨rewritesTaylor e, ?_, hee⟩
    rw [← h9]
    refine List.mem_iff_getElem?.2 ⟨i, ?_⟩
    rw [List.getElem?_drop, List.getElem?_eq_getElem]
  rw [decomposeSys, rawSys, h1 fuel hf]
  simp [h7]

/-! ### An example -/

/-- The harmonic oscillator, with two functions of the state. -/
noncomputable def oscRhs : List (Expr ℝ) := [.var "v", .fn (.prod true) [.dbl (-1), .var "x"]]

/-- The sine of the position and the square of the velocity. -/
noncomputable def oscSvf : List (Expr ℝ) := [.fn (.sin false) [.var "x"], .fn (.pow (.posInt 2)) [.var "v", .dbl 2]]

/-- A solution. -/
noncomputable def oscCurve (s : String) : ℝ → ℝ := if s = "x" then Real.cos else fun t => -Real.sin t

/-- The hypotheses of `jet_is_taylor_series` are met by the oscillator, at every time. -/
example (t0 : ℝ) : ∃ share : List (Expr ℝ) → List (Sym.Node ℝ),
    ["x", "v"].Nodup ∧ oscRhs.length = ["x", "v"].length ∧
    Represents (share (sysExprs ["x", "v"] (oscRhs ++ oscSvf))) (sysExprs ["x", "v"] (oscRhs ++ oscSvf)) ∧
    (∀ e ∈ oscSvf, (rewritesTaylor e).isNum = false ∧ ∀ i, rewritesTaylor e ≠ .par i) ∧
    (∀ s ∈ ["x", "v"], SmoothAt (oscCurve s) t0) ∧
    (∀ e ∈ oscRhs ++ oscSvf, SysReg Fn.builtin ["x", "v"] oscCurve (fun _ => 0) t0 e) ∧
    Solution ["x", "v"] oscRhs oscCurve (fun _ => 0) t0 := by
  obtain ⟨share, hs⟩ := exists_share
  refine ⟨share, by decide, rfl, hs _, ?_, ?_, ?_, ?_⟩
  · intro e he
    simp only [oscSvf, List.mem_cons, List.not_mem_nil, or_false] at he
    rcases he with rfl | rfl
    · exact ⟨rfl, fun i h => by cases h⟩
    · exact ⟨rfl, fun i h => by cases h⟩
  · intro s hs n
    simp only [List.mem_cons, List.not_mem_nil, or_false] at hs
    rcases hs with rfl | rfl
    · simpa [oscCurve] using Real.contDiff_cos.contDiffAt
    · simpa [oscCurve] using Real.contDiff_sin.neg.contDiffAt
  · have hvar : ∀ s, s ∈ ["x", "v"] → SysReg Fn.builtin ["x", "v"] oscCurve (fun _ => 0) t0 (.var s) := fun s hs =>
      ⟨hs, trivial, .of_forall fun t => ⟨_, rfl⟩⟩
    have hnum : ∀ r : ℝ, SysReg Fn.builtin ["x", "v"] oscCurve (fun _ => 0) t0 (.dbl r) := fun r =>
      ⟨trivial, trivial, .of_forall fun t => ⟨r, by simp⟩⟩
    intro e he
    simp only [oscRhs, oscSvf, List.cons_append, List.nil_append, List.mem_cons, List.not_mem_nil, or_false] at he
    rcases he with rfl | rfl | rfl | rfl
    · exact hvar _ (by simp)
    · refine ⟨Expr.good_fn.2 ⟨trivial, ?_⟩, .fn ⟨⟨by simp, by simp⟩, ?_, .inr trivial, by simp⟩ ?_⟩
      · intro a ha
        rw [List.mem_pair] at ha
        rcases ha with rfl | rfl
        · trivial
        · exact (hvar "x" (by simp)).good
      · exact .of_forall fun t => ⟨_, by rw [eval_prod]; simp; rfl⟩
      · simp only [List.mem_cons, List.not_mem_nil, or_false]
        rintro a (rfl | rfl)
        · exact (hnum _).reg
        · exact (hvar "x" (by simp)).reg
    · refine ⟨Expr.good_fn.2 ⟨trivial, ?_⟩, .fn ⟨trivial, ?_, .inr trivial, by simp⟩ ?_⟩
      · intro a ha
        rw [List.mem_singleton.1 ha]
        exact (hvar "x" (by simp)).good
      · exact .of_forall fun t => ⟨_, by rw [Expr.eval_fn _ _ _ (by simp)]; simp [app_def, realApp]; rfl⟩
      · simp only [List.mem_cons, List.not_mem_nil, or_false]
        rintro a rfl
        exact (hvar "x" (by simp)).reg
    · refine ⟨Expr.good_fn.2 ⟨trivial, ?_⟩, .fn ⟨⟨_, _, rfl, by simp⟩, ?_, .inr (.inr ⟨_, rfl, ?_⟩), ?_⟩ ?_⟩
      · intro a ha
        rw [List.mem_pair] at ha
        rcases ha with rfl | rfl
        · exact (hvar "v" (by simp)).good
        · trivial
      · refine .of_forall fun t => ⟨_, eval_pow_some.2 ⟨_, 2, rfl, by simp, ?_, rfl⟩⟩
        rcases lt_trichotomy 0 ((curveEnv oscCurve (fun _ => 0) t).var "v") with h | h | h
        · exact .inl h
        · exact .inr (.inl ⟨h.symm, by norm_num⟩)
        · exact .inr (.inr ⟨h, 2, by norm_num⟩)
      · simp [Num.dbl, Num.toK?]
      · intro a b e _ h hn
        simp only [List.cons.injEq, and_true] at h
        rw [← h.2] at hn
        simp [Expr.dbl, Expr.isNum] at hn
      · simp only [List.mem_cons, List.not_mem_nil, or_false]
        rintro a (rfl | rfl)
        · exact (hvar "v" (by simp)).reg
        · exact (hnum _).reg
  · intro i s e hs he
    rcases i with _ | _ | i
    · simp only [List.getElem?_cons_zero, oscRhs, Option.some.injEq] at hs he
      subst hs he
      refine .of_forall fun t => ?_
      simpa [av, curveEnv, oscCurve] using Real.hasDerivAt_cos t
    · simp only [List.getElem?_cons_zero, List.getElem?_cons_succ, oscRhs, Option.some.injEq] at hs he
      subst hs he
      refine .of_forall fun t => ?_
      have : av (curveEnv oscCurve fun _ => 0) (.fn (.prod true) [.dbl (-1), .var "x"]) t = -Real.cos t := by
        rw [av, eval_prod]
        simp [curveEnv, oscCurve]
      rw [this]
      have hc : oscCurve "v" = fun t => -Real.sin t := by simp [oscCurve]
      rw [hc]
      exact (Real.hasDerivAt_sin t).neg
    · simp at hs

end Heyoka.Taylor

import Verif.Taylor.CExec
import Verif.Taylor.CReal
import Verif.Taylor.UserShape
import Verif.Props.Jet

/-!
# C19: the jet of the compact mode is the jet of the default mode

`jet` is the model of the default mode, `cjet` that of the compact mode, where the mode is sequential, or parallel with a
schedule: for every order and every list of calls of a segment, the order in which the calls take place. In the model of the
compact mode an access outside of the tape, the reading of a value not yet written, and in parallel mode the reading or
writing of a value written by another call of the segment are undefined behaviour. `SSysOk` are the well-formed
decompositions, and `decomposeSys_sok` says that these are what is constructed.
-/

set_option linter.unusedSectionVars false
set_option linter.unusedVariables false

namespace Heyoka.Taylor

open Heyoka.Sym

variable [FmtName ℝ] {S : ℝ → Prop} {L : Fn ℝ → Prop}

/-- C19. For every well-formed decomposition, every order, parameters, time, state and schedule: the compact mode computes the
same jet as the default mode, and both are defined. The product of the number of variables and of the number of derivatives
is bounded, see `compact_tape_index_is_signed`. -/
theorem compact_jet_eq_default (hS : HexOk S) (hU : UserNames S L) {neq : ℕ} {dc : TDc ℝ} {svf : List ℕ}
    (hdc : SSysOk L neq dc svf) (hfn : FnMid neq dc) (hneq : neq ≠ 0) (mode : Mode ℝ) (hm : mode.Fair) (par : ℕ → ℝ)
    (time : ℝ) (order : ℕ) (ho : order ≠ 0) (hb : (dc.length - neq) * (order + 1) ≤ 2 ^ 31) (state : List ℝ)
    (hs : state.length = neq) :
    cjet mode par time neq dc svf order state = jet par time neq dc svf order state ∧
      ∃ l, jet par time neq dc svf order state = .ok l ∧ l.length = order + 1 ∧
        ∀ row ∈ l, row.length = neq + svf.length := by
  have hsz : dc.length ≤ 2 ^ 32 := by
    have h1 := hdc.len
    have : dc.length - neq ≤ 2 ^ 31 := (Nat.le_mul_of_pos_right _ (by omega)).trans hb
    omega
  have h1 := jet_ref (par := par) (time := time) real_powSound hdc hfn hsz hneq ho hs
  have h2 := cjet_ref (par := par) (time := time) real_powSound (real_cnameSound hS hU) hdc hfn hm hneq ho hb hs
  refine ⟨by rw [h1, h2], _, h1, by simp, fun row hr => ?_⟩
  obtain ⟨o, -, rfl⟩ := List.mem_map.1 hr
  simp

/-- C19 for the systems of equations of the user: the decomposition is produced, and for it the compact mode computes the same
jet as the default mode. -/
theorem compact_jet_eq_default_system (hS : HexOk S) (hU : UserNames S L) (share : List (Expr ℝ) → List (Sym.Node ℝ))
    (names : List String) (rhs svf : List (Expr ℝ)) (hne : names ≠ []) (hnd : names.Nodup) (hlen : rhs.length = names.length)
    (hsh : Represents (share (sysExprs names (rhs ++ svf))) (sysExprs names (rhs ++ svf)))
    (hsvf : ∀ e ∈ svf, (rewritesTaylor e).isNum = false ∧ ∀ i, rewritesTaylor e ≠ .par i)
    (hes : ∀ e ∈ rhs ++ svf, UserExpr L names e)
    (hsize : 2 * names.length + 5 * Expr.fnCountL (sysExprs names (rhs ++ svf)) ≤ 2 ^ 32) :
    ∃ N dc is, (∀ fuel, N ≤ fuel → decomposeSys fuel share names rhs svf = some (.ok (dc, is))) ∧
      ∀ (mode : Mode ℝ) (par : ℕ → ℝ) (time : ℝ) (order : ℕ) (state : List ℝ), mode.Fair → order ≠ 0 →
        (dc.length - names.length) * (order + 1) ≤ 2 ^ 31 → state.length = names.length →
        cjet mode par time names.length dc is order state = jet par time names.length dc is order state ∧
        ∃ l, jet par time names.length dc is order state = .ok l := by
  obtain ⟨N, dc, is, h1, h2, h3, h4⟩ := decomposeSys_sok hne hnd hlen (fun e he => (hes e he).sysShape) hsvf hsh hsize
  refine ⟨N, dc, is, h1, fun mode par time order state hm ho hb hs => ?_⟩
  obtain ⟨g1, l, g2, -⟩ := compact_jet_eq_default hS hU h3 h4 (by simpa using hne) mode hm par time order ho hb state hs
  exact ⟨g1, l, g2⟩

/-- C18 for the compact mode: the jet consists of the Taylor coefficients of the solution, and of those of the extra functions
along it. -/
theorem compact_jet_is_taylor_series (hS : HexOk S) (hU : UserNames S L) (share : List (Expr ℝ) → List (Sym.Node ℝ))
    (names : List String) (rhs svf : List (Expr ℝ)) (hne : names ≠ []) (hnd : names.Nodup) (hlen : rhs.length = names.length)
    (hsh : Represents (share (sysExprs names (rhs ++ svf))) (sysExprs names (rhs ++ svf)))
    (hsvf : ∀ e ∈ svf, (rewritesTaylor e).isNum = false ∧ ∀ i, rewritesTaylor e ≠ .par i)
    (hes : ∀ e ∈ rhs ++ svf, UserExpr L names e)
    (hsize : 2 * names.length + 5 * Expr.fnCountL (sysExprs names (rhs ++ svf)) ≤ 2 ^ 32)
    (x : String → ℝ → ℝ) (par : ℕ → ℝ) (t0 : ℝ) (hx : ∀ s ∈ names, SmoothAt (x s) t0)
    (hreg : ∀ e ∈ rhs ++ svf, SysReg Fn.builtin names x par t0 e) (hsol : Solution names rhs x par t0) :
    ∃ N dc is, (∀ fuel, N ≤ fuel → decomposeSys fuel share names rhs svf = some (.ok (dc, is))) ∧
      ∀ (mode : Mode ℝ) (order : ℕ), mode.Fair → order ≠ 0 → (dc.length - names.length) * (order + 1) ≤ 2 ^ 31 →
        cjet mode par t0 names.length dc is order (names.map fun s => x s t0) = .ok (seriesOf names svf x par t0 order) := by
  obtain ⟨N, dc, is, h1, h2⟩ := compact_jet_eq_default_system hS hU share names rhs svf hne hnd hlen hsh hsvf hes hsize
  obtain ⟨M, dc0, outs0, g1, g2⟩ := jet_is_taylor_series share names rhs svf hne hnd hlen hsh hsvf x par t0 hx hreg hsol
  obtain ⟨M', dc', is', g3, g4⟩ := g2 (by have := sys_size_bound hsh (g1 M (le_refl _)); omega)
  have he := h1 (max N M') (le_max_left _ _)
  rw [g3 (max N M') (le_max_right _ _)] at he
  injection he with he
  injection he with he
  injection he with e1 e2
  subst e1 e2
  refine ⟨N, dc', is', h1, fun mode order hm ho hb => ?_⟩
  rw [(h2 mode par t0 order _ hm ho hb (by simp)).1]
  exact g4 order (Nat.pos_of_ne_zero ho)

/-- The overflow check: if the number of derivatives does not fit in 32 bits, an exception is thrown. -/
theorem compact_overflow_throws {neq : ℕ} {dc : TDc ℝ} {svf : List ℕ} (hneq : neq ≠ 0) (hl : neq + neq ≤ dc.length)
    (mode : Mode ℝ) (par : ℕ → ℝ) (time : ℝ) {order : ℕ} (ho : order ≠ 0) {state : List ℝ} (hs : state.length = neq)
    (h : 2 ^ 32 ≤ (dc.length - neq) * (order + 1)) : cjet mode par time neq dc svf order state = .throw := by
  rw [cjet, if_neg (by omega), cjetTape, if_pos h]
  rfl

omit [FmtName ℝ] in
theorem extract_some {rd : ℕ → ℕ → Res (V ℝ)} {us : List ℕ} : ∀ {os : List ℕ} {l : List (List (V ℝ))},
    extract rd us os = .ok l → ∀ o ∈ os, ∀ u ∈ us, ∃ x, rd u o = .ok x := by
  have key : ∀ {us : List ℕ} {o : ℕ} {l : List (V ℝ)}, fetchAll rd o us = .ok l → ∀ u ∈ us, ∃ x, rd u o = .ok x := by
    intro us
    induction us with
    | nil => simp
    | cons v us ih =>
      intro o l h u hu
      simp only [fetchAll, Res.bind_eq, Res.pure_eq] at h
      cases hv : rd v o with
      | throw => rw [hv] at h; cases h
      | ub => rw [hv] at h; cases h
      | ok x =>
        rw [hv, Res.bind_ok] at h
        cases hr : fetchAll rd o us with
        | throw => rw [hr] at h; cases h
        | ub => rw [hr] at h; cases h
        | ok l' =>
          rcases List.mem_cons.1 hu with rfl | hu
          · exact ⟨x, hv⟩
          · exact ih hr u hu
  intro os
  induction os with
  | nil => simp
  | cons a os ih =>
    intro l h o ho u hu
    simp only [extract, Res.bind_eq, Res.pure_eq] at h
    cases hv : fetchAll rd a us with
    | throw => rw [hv] at h; cases h
    | ub => rw [hv] at h; cases h
    | ok x =>
      rw [hv, Res.bind_ok] at h
      cases hr : extract rd us os with
      | throw => rw [hr] at h; cases h
      | ub => rw [hr] at h; cases h
      | ok l' =>
        rcases List.mem_cons.1 ho with rfl | ho
        · exact key hv u hu
        · exact ih hr o ho u hu

/-- A limit of the compact mode which is not checked. The index of a derivative in the tape is computed with 32-bit integers,
and it is used in a `getelementptr` instruction, which considers it a signed number. If an index is between 2³¹ and 2³² the
overflow check passes, but the jet is not computed: the address is outside of the tape. In default mode the jet of the same
decomposition is defined. -/
theorem compact_tape_index_is_signed {neq : ℕ} {dc : TDc ℝ} {svf : List ℕ} (hdc : SSysOk L neq dc svf) (hfn : FnMid neq dc)
    (hsz : dc.length ≤ 2 ^ 32) (hneq : neq ≠ 0) (mode : Mode ℝ) (par : ℕ → ℝ) (time : ℝ) {order : ℕ} (ho : order ≠ 0)
    {state : List ℝ} (hs : state.length = neq) (h1 : 2 ^ 31 ≤ order * (dc.length - neq))
    (h2 : (dc.length - neq) * (order + 1) < 2 ^ 32) :
    (∀ l, cjet mode par time neq dc svf order state ≠ .ok l) ∧ ∃ l, jet par time neq dc svf order state = .ok l := by
  refine ⟨fun l hl => ?_, _, jet_ref (par := par) (time := time) real_powSound hdc hfn hsz hneq ho hs⟩
  have h3 := hdc.len
  rw [cjet, if_neg (by omega)] at hl
  cases hc : cjetTape mode par time neq dc svf order state with
  | throw => rw [hc] at hl; cases hl
  | ub => rw [hc] at hl; cases hl
  | ok tape =>
    rw [hc, Res.bind_ok] at hl
    obtain ⟨x, hx⟩ := extract_some hl order (by simp) 0 (by simp; omega)
    have h4 : cell (dc.length - neq) 0 order = order * (dc.length - neq) := by
      have : (dc.length - neq) * (order + 1) = order * (dc.length - neq) + (dc.length - neq) := by
        rw [Nat.mul_comm, Nat.succ_mul]
      rw [cell, Nat.add_zero, Nat.mod_eq_of_lt (by omega)]
    rw [tget, h4, if_neg (by omega)] at hx
    cases hx

/-! ### Examples -/

/-- A schedule: the calls in reverse order. -/
def reverseMode : Mode ℝ := .parallel fun _ l => l.reverse

theorem reverseMode_fair : reverseMode.Fair := fun _ l => l.reverse_perm

/-- No user-supplied names. -/
theorem no_userNames : UserNames (fun _ => False) (fun _ : Fn ℝ => False) :=
  ⟨fun _ h => h.elim, fun _ h => h, fun _ h => h⟩

theorem no_hex : HexOk (fun _ : ℝ => False) := ⟨fun _ _ h => h.elim, fun _ h => h.elim⟩

/-- The hypotheses of `compact_jet_eq_default_system` are met by the oscillator with the two extra functions. -/
example : ∃ share : List (Expr ℝ) → List (Sym.Node ℝ),
    Represents (share (sysExprs ["x", "v"] (oscRhs ++ oscSvf))) (sysExprs ["x", "v"] (oscRhs ++ oscSvf)) ∧
    (∀ e ∈ oscSvf, (rewritesTaylor e).isNum = false ∧ ∀ i, rewritesTaylor e ≠ .par i) ∧
    (∀ e ∈ oscRhs ++ oscSvf, UserExpr (fun _ : Fn ℝ => False) ["x", "v"] e) ∧
    2 * ["x", "v"].length + 5 * Expr.fnCountL (sysExprs ["x", "v"] (oscRhs ++ oscSvf)) ≤ 2 ^ 32 ∧ reverseMode.Fair := by
  obtain ⟨share, hs⟩ := exists_share
  refine ⟨share, hs _, ?_, ?_, ?_, reverseMode_fair⟩
  · intro e he
    simp only [oscSvf, List.mem_cons, List.not_mem_nil, or_false] at he
    rcases he with rfl | rfl
    · exact ⟨rfl, fun i h => by cases h⟩
    · exact ⟨rfl, fun i h => by cases h⟩
  · intro e he
    simp only [oscRhs, oscSvf, List.cons_append, List.nil_append, List.mem_cons, List.not_mem_nil, or_false] at he
    rcases he with rfl | rfl | rfl | rfl
    · exact ⟨by show "v" ∈ ["x", "v"]; simp, trivial⟩
    · exact ⟨by simp [Expr.Good, Expr.GoodL, Expr.dbl], by simp [Expr.AllFns, Expr.AllFnsL, Expr.dbl, UserShape, ArgShape, KepOk]⟩
    · exact ⟨by simp [Expr.Good, Expr.GoodL, Expr.dbl], by simp [Expr.AllFns, Expr.AllFnsL, UserShape, ArgShape, TShape, KepOk]⟩
    · exact ⟨by simp [Expr.Good, Expr.GoodL, Expr.dbl], by simp [Expr.AllFns, Expr.AllFnsL, Expr.dbl, UserShape, ArgShape, KepOk]⟩
  · simp [oscRhs, oscSvf, sysExprs, rewritesTaylor, renameIn, Expr.mapNodes, Expr.mapNodesL, powToExplog, sumToSub, sumSplit,
      sumToSumSq, prodToDiv, prodSplit, divFactorTaylor, renameLeaf, Expr.dbl, Expr.fnCount, Expr.fnCountL, Expr.isNum]
    rcases List.lookup "v" (renMap ["x", "v"]) <;> rcases List.lookup "x" (renMap ["x", "v"]) <;> simp [Expr.fnCount]

end Heyoka.Taylor

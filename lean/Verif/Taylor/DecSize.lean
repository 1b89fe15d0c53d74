import Verif.Taylor.Decompose
import Verif.Decomp.Size

/-!
# The size of a Taylor decomposition

Every function appends at most five elements.
-/

set_option linter.unusedSectionVars false

namespace Heyoka.Taylor

open Heyoka.Sym

variable {K : Type} [Field K] [LinearOrder K] [FloorRing K] [Interp K] [FmtName K]

theorem customDec_length {n k : Nat} {f : Fn K} {as : List (Expr K)} {d : TDc K}
    (h : customDec n f as = .ok (k, d)) : d.length ≤ 5 := by
  unfold customDec at h
  split at h <;> cases h <;> simp

theorem taylorFdc_length {e : Expr K} {dc dc' : TDc K} {i : Nat} (h : taylorFdc e dc = .ok (i, dc')) :
    dc'.length ≤ dc.length + 5 := by
  cases e with
  | fn f as =>
    rw [taylorFdc] at h
    cases hc : customDec dc.length f as with
    | ok p =>
      obtain ⟨k, d⟩ := p
      rw [hc, Res.bind_ok] at h
      dsimp only at h
      have := customDec_length hc
      split_ifs at h
      cases h
      simp
      omega
    | throw => rw [hc] at h; cases h
    | ub => rw [hc] at h; cases h
  | _ => cases h

theorem tdecStep_size {st st' : DState K (TElem K)} (h : decStep taylorFdc st = .ok st') :
    st'.dc.length + 5 * pend st'.stack ≤ st.dc.length + 5 * pend st.stack := by
  obtain ⟨stack, out, fmap, smap, dc⟩ := st
  match stack, h with
  | [], h => cases h; exact le_rfl
  | (.fn id sid f args, true) :: rest, h =>
    simp only [decStep] at h
    split at h
    · cases h
    cases h1 : popArgs args.length out with
    | ok p =>
      rw [h1] at h
      cases h2 : newArgs args p.1 with
      | ok as =>
        simp only [Res.bind_ok, h2] at h
        split at h
        · cases h
        cases h3 : taylorFdc (.fn f as) dc with
        | ok q =>
          simp only [h3, Res.bind_ok] at h
          have := taylorFdc_length h3
          split at h
          · cases h
            simp only [pend]
            omega
          · cases h
        | throw => simp [h3] at h
        | ub => simp [h3] at h
      | throw => simp [h2] at h
      | ub => simp [h2] at h
    | throw => rw [h1] at h; cases h
    | ub => rw [h1] at h; cases h
  | (.fn id sid f args, false) :: rest, h =>
    simp only [decStep] at h
    split at h
    · cases h; simp [pend]
    · split at h
      · rename_i as _
        cases h3 : taylorFdc (.fn f as) dc with
        | ok q =>
          rw [h3, Res.bind_ok] at h
          have := taylorFdc_length h3
          cases h
          simp only [pend, Node.toExpr, Expr.fnCount]
          omega
        | throw => rw [h3] at h; cases h
        | ub => rw [h3] at h; cases h
      · cases h
        simp only [pend_append, pend_args, pend, Node.toExpr, Expr.fnCount]
        omega
  | (.num n, true) :: rest, h => cases h
  | (.var n, true) :: rest, h => cases h
  | (.par n, true) :: rest, h => cases h
  | (.num n, false) :: rest, h => cases h; simp [pend]
  | (.var n, false) :: rest, h => cases h; simp [pend]
  | (.par n, false) :: rest, h => cases h; simp [pend]

theorem tdecLoop_size (fuel : Nat) : ∀ {st st' : DState K (TElem K)}, decLoop taylorFdc fuel st = some (.ok st') →
    st'.dc.length + 5 * pend st'.stack ≤ st.dc.length + 5 * pend st.stack := by
  unfold decLoop
  induction fuel with
  | zero =>
    intro st st' h
    rw [loopUntil] at h
    split_ifs at h
    cases h
    exact le_rfl
  | succ fuel ih =>
    intro st st' h
    rw [loopUntil] at h
    split_ifs at h
    · cases h
      exact le_rfl
    · cases hs : decStep taylorFdc st with
      | ok st1 =>
        rw [hs] at h
        exact (ih h).trans (tdecStep_size hs)
      | throw => rw [hs] at h; cases h
      | ub => rw [hs] at h; cases h

theorem tdecAll_size (fuel : Nat) (ns : List (Sym.Node K)) : ∀ {fmap smap} {dc dc' : TDc K} {outs : List (Expr K)},
    decAll taylorFdc fuel fmap smap dc ns = some (.ok (dc', outs)) →
    dc'.length ≤ dc.length + 5 * Expr.fnCountL (ns.map Node.toExpr) := by
  induction ns with
  | nil =>
    intro fmap smap dc dc' outs h
    cases h
    simp
  | cons n ns ih =>
    intro fmap smap dc dc' outs h
    rw [decAll] at h
    split at h
    · cases h
    · cases h
    · cases h
    · rename_i st hst
      have h1 := tdecLoop_size fuel hst
      split at h
      · split at h
        · cases h
        · rename_i rs hrs
          cases rs with
          | ok p =>
            obtain ⟨d, o⟩ := p
            simp only [Res.bind_ok] at h
            cases h
            have h2 := ih hrs
            simp only [pend, Nat.add_zero] at h1
            rw [List.map_cons, Expr.fnCountL]
            omega
          | throw => cases h
          | ub => cases h
      · cases h

/-- The decomposition of expressions with `c` functions, after the rewrites, has at most `5 * c` elements besides the
state variables. -/
theorem decSys_size {fuel : Nat} {share : List (Expr K) → List (Sym.Node K)} {names : List String}
    {es : List (Expr K)} (hsh : (share (sysExprs names es)).map Node.toExpr = sysExprs names es) {dc : TDc K}
    {outs : List (Expr K)} (h : decSys fuel share names es = some (.ok (dc, outs))) :
    dc.length ≤ names.length + 5 * Expr.fnCountL (sysExprs names es) := by
  have := tdecAll_size fuel _ h
  rw [hsh] at this
  simpa using this

end Heyoka.Taylor

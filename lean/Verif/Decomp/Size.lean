import Verif.Decomp.FunDec

/-!
# The size of a decomposition
-/

set_option linter.unusedSectionVars false

namespace Heyoka.Sym

variable {K : Type}

mutual
/-- The number of functions in an expression (repeated functions are counted several times). -/
def Expr.fnCount : Expr K → Nat
  | .fn _ args => Expr.fnCountL args + 1
  | .num _ => 0
  | .var _ => 0
  | .par _ => 0
/-- The number of functions in several expressions. -/
def Expr.fnCountL : List (Expr K) → Nat
  | [] => 0
  | e :: es => Expr.fnCount e + Expr.fnCountL es
end

/-- What the pending work can add to the decomposition. -/
def pend : List (Node K × Bool) → Nat
  | [] => 0
  | (n, true) :: s => 1 + pend s
  | (n, false) :: s => n.toExpr.fnCount + pend s

theorem pend_append (s t : List (Node K × Bool)) : pend (s ++ t) = pend s + pend t := by
  induction s with
  | nil => simp [pend]
  | cons a s ih =>
    obtain ⟨n, b⟩ := a
    cases b <;> simp [pend, ih, Nat.add_assoc]

theorem pend_args (args : List (Node K)) :
    pend (args.reverse.map (·, false)) = Expr.fnCountL (Node.toExprL args) := by
  induction args with
  | nil => rfl
  | cons a as ih =>
    rw [List.reverse_cons, List.map_append, pend_append, ih, Node.toExprL, Expr.fnCountL]
    simp [pend, Nat.add_comm]

theorem decStep_size {st st' : DState K (Expr K)} (h : decStep fdcAppend st = .ok st') :
    st'.dc.length + pend st'.stack ≤ st.dc.length + pend st.stack := by
  obtain ⟨stack, out, fmap, smap, dc⟩ := st
  match stack, h with
  | [], h => cases h; exact le_rfl
  | (.fn id sid f args, true) :: rest, h =>
    simp only [decStep] at h
    split at h
    · cases h
    cases h1 : popArgs args.length out with
    | ok p =>
      rw [h1] at h
      cases h2 : newArgs args p.1 with
      | ok as =>
        simp only [Res.bind_ok, h2] at h
        split at h
        · cases h
        simp only [fdcAppend, Res.bind_ok] at h
        split at h
        · cases h
          simp [pend]
          omega
        · cases h
      | throw => simp [h2] at h
      | ub => simp [h2] at h
    | throw => rw [h1] at h; cases h
    | ub => rw [h1] at h; cases h
  | (.fn id sid f args, false) :: rest, h =>
    simp only [decStep] at h
    split at h
    · cases h; simp [pend]
    · split at h
      · simp only [fdcAppend, Res.bind_ok] at h
        cases h
        simp only [pend, Node.toExpr, Expr.fnCount, List.length_append, List.length_cons, List.length_nil]
        omega
      · cases h
        simp only [pend_append, pend_args, pend, Node.toExpr, Expr.fnCount]
        omega
  | (.num n, true) :: rest, h => cases h
  | (.var n, true) :: rest, h => cases h
  | (.par n, true) :: rest, h => cases h
  | (.num n, false) :: rest, h => cases h; simp [pend]
  | (.var n, false) :: rest, h => cases h; simp [pend]
  | (.par n, false) :: rest, h => cases h; simp [pend]

theorem decLoop_size (fuel : Nat) : ∀ {st st' : DState K (Expr K)}, decLoop fdcAppend fuel st = some (.ok st') →
    st'.dc.length + pend st'.stack ≤ st.dc.length + pend st.stack := by
  unfold decLoop
  induction fuel with
  | zero =>
    intro st st' h
    rw [loopUntil] at h
    split_ifs at h
    cases h
    exact le_rfl
  | succ fuel ih =>
    intro st st' h
    rw [loopUntil] at h
    split_ifs at h
    · cases h
      exact le_rfl
    · cases hs : decStep fdcAppend st with
      | ok st1 =>
        rw [hs] at h
        exact (ih h).trans (decStep_size hs)
      | throw => rw [hs] at h; cases h
      | ub => rw [hs] at h; cases h

theorem decAll_size (fuel : Nat) (ns : List (Node K)) : ∀ {fmap smap} {dc dc' : List (Expr K)} {outs : List (Expr K)},
    decAll fdcAppend fuel fmap smap dc ns = some (.ok (dc', outs)) →
    dc'.length ≤ dc.length + Expr.fnCountL (ns.map Node.toExpr) ∧ outs.length = ns.length := by
  induction ns with
  | nil =>
    intro fmap smap dc dc' outs h
    cases h
    simp
  | cons n ns ih =>
    intro fmap smap dc dc' outs h
    rw [decAll] at h
    split at h
    · cases h
    · cases h
    · cases h
    · rename_i st hst
      have h1 := decLoop_size fuel hst
      split at h
      · split at h
        · cases h
        · rename_i rs hrs
          cases rs with
          | ok p =>
            obtain ⟨d, o⟩ := p
            simp only [Res.bind_ok] at h
            cases h
            obtain ⟨h2, h3⟩ := ih hrs
            simp only [pend, Nat.add_zero] at h1
            rw [List.map_cons, Expr.fnCountL, List.length_cons, List.length_cons, h3]
            exact ⟨by omega, rfl⟩
          | throw => cases h
          | ub => cases h
      · cases h

end Heyoka.Sym

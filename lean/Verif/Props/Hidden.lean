import Verif.Props.CJet
import Verif.Taylor.Congr

/-!
# C46: hidden dependencies

An element of a decomposition has visible arguments and hidden dependencies, e.g. `sin(u_0)` with the hidden dependency
`cos(u_0)`. The sort and the segmentation consider only the visible arguments, so that a hidden dependency may come later in
the decomposition. `SSysOk L neq dc svf` says that `dc` is a decomposition in which the visible arguments come before the
element, the hidden dependencies are anywhere: every order which may be chosen by the sort is included.

The derivatives already computed are given by a function `rd`, the value of which is undefined behaviour for what has not
been computed.
-/

set_option linter.unusedSectionVars false
set_option linter.unusedVariables false

namespace Heyoka.Taylor

open Heyoka.Sym

variable [FmtName ℝ] {S : ℝ → Prop} {L : Fn ℝ → Prop} {neq : ℕ} {dc : TDc ℝ} {svf : List ℕ}

/-- What may be read for the derivative of order `n` of the element `u`: the lower orders of the element and of its hidden
dependencies, and the orders up to `n` of the visible arguments, which come before the element. -/
def MayRead (u n : ℕ) (e : TElem ℝ) (v o : ℕ) : Prop :=
  (v = u ∧ o < n) ∨ (v ∈ e.2 ∧ o < n) ∨ (usesVar e v ∧ o ≤ n)

/-- Everything which may be read has been computed before, in default mode: the orders are computed one after the other, for
each order the elements one after the other. -/
theorem mayRead_before (hdc : SSysOk L neq dc svf) (hfn : FnMid neq dc) (hsz : dc.length ≤ 2 ^ 32) {u n v o : ℕ} {e : TElem ℝ}
    (he : dc[u]? = some e) (hu : neq ≤ u) (hun : u < dc.length - neq) (h : MayRead u n e v o) :
    v < dc.length - neq ∧ (o < n ∨ (o = n ∧ v < u)) := by
  have hok := hdc.elem u e he hu hun
  rcases h with ⟨rfl, h⟩ | ⟨h1, h2⟩ | ⟨⟨f, es, h1, h2⟩, h3⟩
  · exact ⟨hun, .inl h⟩
  · exact ⟨hok.deps v h1, .inl h2⟩
  · rcases hok.ok with ⟨f', es', g1, g2, -⟩ | ⟨m, hm⟩
    · rw [h1] at g1
      injection g1 with g1 g1'
      subst g1 g1'
      obtain ⟨j, hj, hs⟩ := g2 _ h2
      have : v = j := by
        have a := unameToIndex_uname v
        have b := unameToIndex_uname j
        rw [hs] at a
        rw [a] at b
        rw [if_pos (show j < 2 ^ 32 by omega)] at b
        split at b
        · injection b
        · cases b
      subst this
      exact ⟨by omega, by omega⟩
    · rw [h1] at hm; cases hm

/-- C46, for one element. If what may be read has been computed, the derivative is computed, in both modes and with the same
result, even if the reading of anything else is undefined behaviour. -/
theorem order_n_needs_only_lower_hidden (hdc : SSysOk L neq dc svf) (hfn : FnMid neq dc) (hsz : dc.length ≤ 2 ^ 32)
    (par : ℕ → ℝ) (time : ℝ) {u n : ℕ} {e : TElem ℝ} (he : dc[u]? = some e) (hu : neq ≤ u) (hun : u < dc.length - neq)
    {rd : ℕ → ℕ → Res (V ℝ)} (hrd : ∀ v o, MayRead u n e v o → ∃ x, rd v o = .ok x) :
    ∃ x, elemDiff par time rd n u e = .ok x ∧ elemDiffC par time rd n u e = .ok x := by
  obtain ⟨x, h1, h2⟩ := elem_both (par := par) (time := time) (rd := rd) (g := fun v o => okVal (rd v o)) real_powSound hdc hfn
    hsz he hu hun
    (fun o ho => by obtain ⟨x, hx⟩ := hrd u o (.inl ⟨rfl, ho⟩); simp only [hx, okVal])
    (fun d hd o ho => by obtain ⟨x, hx⟩ := hrd d o (.inr (.inl ⟨hd, ho⟩)); simp only [hx, okVal])
    (fun j hj o ho => by obtain ⟨x, hx⟩ := hrd j o (.inr (.inr ⟨hj, by omega⟩)); simp only [hx, okVal])
  exact ⟨x, h1, h2⟩

/-- The derivative depends on nothing else: what has or has not been written elsewhere does not matter. -/
theorem order_n_reads_only_computed (hdc : SSysOk L neq dc svf) (hfn : FnMid neq dc) (hsz : dc.length ≤ 2 ^ 32)
    (par : ℕ → ℝ) (time : ℝ) {u n : ℕ} {e : TElem ℝ} (he : dc[u]? = some e) (hu : neq ≤ u) (hun : u < dc.length - neq)
    {rd rd' : ℕ → ℕ → Res (V ℝ)} (hrd : ∀ v o, MayRead u n e v o → ∃ x, rd v o = .ok x)
    (hsame : ∀ v o, MayRead u n e v o → rd' v o = rd v o) :
    elemDiff par time rd' n u e = elemDiff par time rd n u e ∧ elemDiffC par time rd' n u e = elemDiffC par time rd n u e := by
  have hd : elemDiff par time rd' n u e = elemDiff par time rd n u e := by
    obtain ⟨f, es, hfe⟩ := hfn u e he hu hun
    rcases (hdc.elem u e he hu hun).ok with ⟨f', es', h3, h4, -⟩ | ⟨m, hm⟩
    · rw [hfe] at h3
      injection h3 with h3 h3'
      subst h3 h3'
      replace h4 := fun a ha => (h4 a ha).ok
      obtain ⟨as, h5, -⟩ := targs_ok (par := par) (i := u) (by omega) h4
      simp only [elemDiff, hfe, h5, Res.bind_eq, Res.bind_ok]
      exact taylorDiff_congr time f (fun o ho => hsame u o (.inl ⟨rfl, ho⟩))
        (fun d hd o ho => hsame d o (.inr (.inl ⟨hd, ho⟩)))
        (fun j hj o ho => hsame j o (.inr (.inr ⟨⟨f, es, hfe, targs_uses (by omega) h4 h5 j hj⟩, by omega⟩)))
    · rw [hfe] at hm; cases hm
  obtain ⟨x, h1, h2⟩ := order_n_needs_only_lower_hidden hdc hfn hsz par time he hu hun hrd
  obtain ⟨x', h1', h2'⟩ := order_n_needs_only_lower_hidden (rd := rd') hdc hfn hsz par time he hu hun
    (fun v o h => by rw [hsame v o h]; exact hrd v o h)
  refine ⟨hd, ?_⟩
  rw [h1, h1'] at hd
  rw [h2, h2', hd]

/-- C46, default mode: whatever the order of the elements, no recurrence reads a derivative which has not been computed (this
would be undefined behaviour), and no exception is thrown. -/
theorem every_order_jet_defined (hdc : SSysOk L neq dc svf) (hfn : FnMid neq dc) (hsz : dc.length ≤ 2 ^ 32) (hneq : neq ≠ 0)
    (par : ℕ → ℝ) (time : ℝ) (order : ℕ) (ho : order ≠ 0) (state : List ℝ) (hs : state.length = neq) :
    ∃ l, jet par time neq dc svf order state = .ok l :=
  ⟨_, jet_ref (par := par) (time := time) real_powSound hdc hfn hsz hneq ho hs⟩

/-- C46, compact mode: the same for every segmentation chosen by the code and every schedule of the calls of a segment. -/
theorem every_order_cjet_defined (hS : HexOk S) (hU : UserNames S L) (hdc : SSysOk L neq dc svf) (hfn : FnMid neq dc)
    (hneq : neq ≠ 0) (mode : Mode ℝ) (hm : mode.Fair) (par : ℕ → ℝ) (time : ℝ) (order : ℕ) (ho : order ≠ 0)
    (hb : (dc.length - neq) * (order + 1) ≤ 2 ^ 31) (state : List ℝ) (hs : state.length = neq) :
    ∃ l, cjet mode par time neq dc svf order state = .ok l := by
  obtain ⟨h1, l, h2, -⟩ := compact_jet_eq_default hS hU hdc hfn hneq mode hm par time order ho hb state hs
  exact ⟨l, by rw [h1, h2]⟩

/-- C46 for the systems of the user: the decomposition exists, its order is a possible one, and its jet is defined. -/
theorem user_jet_defined (share : List (Expr ℝ) → List (Sym.Node ℝ)) (names : List String) (rhs svf : List (Expr ℝ))
    (hne : names ≠ []) (hnd : names.Nodup) (hlen : rhs.length = names.length)
    (hsh : Represents (share (sysExprs names (rhs ++ svf))) (sysExprs names (rhs ++ svf)))
    (hsvf : ∀ e ∈ svf, (rewritesTaylor e).isNum = false ∧ ∀ i, rewritesTaylor e ≠ .par i)
    (hes : ∀ e ∈ rhs ++ svf, UserExpr L names e)
    (hsize : 2 * names.length + 5 * Expr.fnCountL (sysExprs names (rhs ++ svf)) ≤ 2 ^ 32) :
    ∃ N dc is, (∀ fuel, N ≤ fuel → decomposeSys fuel share names rhs svf = some (.ok (dc, is))) ∧
      SSysOk L names.length dc is ∧ FnMid names.length dc ∧
      ∀ (par : ℕ → ℝ) (time : ℝ) (order : ℕ) (state : List ℝ), order ≠ 0 → state.length = names.length →
        ∃ l, jet par time names.length dc is order state = .ok l := by
  obtain ⟨N, dc, is, h1, h2, h3, h4⟩ := decomposeSys_sok hne hnd hlen (fun e he => (hes e he).sysShape) hsvf hsh hsize
  exact ⟨N, dc, is, h1, h3, h4, fun par time order state ho hs =>
    every_order_jet_defined h3 h4 h2 (by simpa using hne) par time order ho state hs⟩

/-! ### Examples -/

/-- The equation x' = sin x: the hidden dependency of the element 1, `sin(u_0)`, is the element 2. -/
def sinSys : TDc ℝ :=
  [(.var "x", []), (.fn (.sin false) [.var (uname 0)], [2]), (.fn (.cos false) [.var (uname 0)], [1]), (.var (uname 1), [])]

theorem sinSys_ok : SSysOk (fun _ => False) 1 sinSys [] := by
  refine ⟨by simp [sinSys], ?_, ?_, ?_, by simp⟩
  · intro i e he hi
    interval_cases i
    cases he
    rfl
  · intro i e he h1 h2
    simp only [sinSys, List.length_cons, List.length_nil] at h2
    interval_cases i
    · cases he
      refine ⟨by simp [sinSys], .inl ⟨_, _, rfl, ?_, rfl, rfl⟩⟩
      intro a ha
      rw [List.mem_singleton] at ha
      subst ha
      exact ⟨0, by omega, rfl⟩
    · cases he
      refine ⟨by simp [sinSys], .inl ⟨_, _, rfl, ?_, rfl, rfl⟩⟩
      intro a ha
      rw [List.mem_singleton] at ha
      subst ha
      exact ⟨0, by omega, rfl⟩
  · intro i e hi he
    interval_cases i
    cases he
    exact ⟨rfl, 1, by simp [sinSys], rfl⟩

theorem sinSys_fn : FnMid 1 sinSys := by
  intro i e he h1 h2
  simp only [sinSys, List.length_cons, List.length_nil] at h2
  interval_cases i <;> cases he <;> exact ⟨_, _, rfl⟩

/-- The hypotheses are met, and the hidden dependency comes after the element. -/
example : SSysOk (fun _ => False) 1 sinSys [] ∧ FnMid 1 sinSys ∧
    MayRead 1 5 (.fn (.sin false) [.var (uname 0)], [2]) 2 4 ∧
    ∃ l, jet (fun _ => 0) 0 1 sinSys [] 5 [1] = .ok l :=
  ⟨sinSys_ok, sinSys_fn, .inr (.inl ⟨by simp, by omega⟩),
    every_order_jet_defined sinSys_ok sinSys_fn (by simp [sinSys]) (by simp) _ _ 5 (by simp) _ rfl⟩

/-- For order five the derivative of order five of the hidden dependency may not be read. -/
example : ¬MayRead 1 5 ((.fn (.sin false) [.var (uname 0)], [2]) : TElem ℝ) 2 5 := by
  rintro (h | h | ⟨⟨f, es, h1, h2⟩, -⟩)
  · omega
  · simp at h
  · cases h1
    rw [List.mem_singleton] at h2
    have a := unameToIndex_uname 2
    have h2 : uname 2 = uname 0 := by injection h2
    rw [h2, unameToIndex_uname 0] at a
    simp at a

end Heyoka.Taylor

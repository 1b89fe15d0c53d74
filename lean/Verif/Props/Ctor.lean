import Verif.Integ.Ctor
import Verif.Props.OdeSys
import Verif.Props.Query
import Verif.Props.VarIcs
import Verif.Props.Decompose
import Verif.AD.Good
import Verif.Compact.Inline

/-!
# C65: the constructors of the adaptive integrators
-/

set_option linter.unusedSectionVars false

namespace Heyoka.Sym

open Heyoka.Dtens Heyoka.AD

variable [FmtName ℝ]

/-! ### Specification -/

/-- The effective tolerance: the machine epsilon if there is no tolerance, or if it is zero. -/
def EffTol (eps : ℝ) (t : Option (FVal ℝ)) (tol : ℝ) : Prop :=
  ((t = none ∨ t = some .nzero ∨ t = some (.fin 0)) ∧ tol = eps) ∨ (t = some (.fin tol) ∧ 0 < tol)

/-- The order for a tolerance: the smallest one, at least two, for which the tolerance is not smaller than
`exp(-2 * (order - 1))`. -/
def OrderFor (tol : ℝ) (p : Nat) : Prop := IsLeast {p : Nat | 2 ≤ p ∧ Real.exp (-2 * ((p : ℝ) - 1)) ≤ tol} p

/-- The number of parameters: the smallest number above all the indices occurring in the right-hand sides and in the
functions of the events. -/
def NPars (a : CtorArgs) (n : Nat) : Prop :=
  IsLeast {n | ∀ i, ((∃ p ∈ a.sys.eqs, Expr.Sub (.par i) p.2) ∨ ∃ e ∈ a.tFuncs ++ a.ntFuncs, Expr.Sub (.par i) e) → i < n} n

/-- The arguments from which an integrator with `b` lanes can be constructed; `n` is the number of original
equations, `tol` the effective tolerance, `p` the order, `np` the number of parameters. -/
structure Accepts (M M64 : Nat) (eps : ℝ) (b : Nat) (times : List ℝ) (a : CtorArgs) (n : Nat) (tol : ℝ) (p np : Nat) :
    Prop where
  wf : ∃ names, OdeSysOk a.sys.eqs (a.tFuncs ++ a.ntFuncs) names
  batch : 0 < b ∧ 2 * b ≤ M
  state : a.state = [] ∨ a.state.length = b * n ∨ a.state.length = b * a.sys.eqs.length
  time : times.length = b
  tolerance : EffTol eps a.tol tol
  order : OrderFor tol p ∧ p < M
  mode : a.parallel = true → a.compact = true
  npars : NPars a np ∧ np * b ≤ M
  pars : a.pars = [] ∨ a.pars.length = b * np
  dim : a.sys.eqs.length ≤ M
  size : b * a.sys.eqs.length * (p + 1) ≤ M64

/-- What is in the integrator, the state apart. -/
structure Holds (b : Nat) (times : List ℝ) (a : CtorArgs) (tol : ℝ) (p np : Nat) (ta : Ta) : Prop where
  pars : ta.pars = if a.pars = [] then List.replicate (b * np) 0 else a.pars
  time : ta.timeHi = times ∧ ta.timeLo = List.replicate b 0
  tol : ta.tol = tol
  order : ta.order = p
  dim : ta.dim = a.sys.eqs.length
  flags : ta.highAcc = a.highAcc ∧ ta.compact = a.compact
  lastH : ta.lastH = List.replicate b 0
  tc : ta.tcSize = ta.dim * (ta.order + 1) * b
  dOut : ta.dOutSize = b * ta.dim

/-! ### Lemmas -/

@[simp] theorem fbind_ok {α β : Type} (x : α) (f : α → Option (Res β)) : fbind (some (.ok x)) f = f x := rfl
@[simp] theorem fbind_throw {α β : Type} (f : α → Option (Res β)) : fbind (some (.throw : Res α)) f = some .throw := rfl
@[simp] theorem fbind_ub {α β : Type} (f : α → Option (Res β)) : fbind (some (.ub : Res α)) f = some .ub := rfl
@[simp] theorem fbind_none {α β : Type} (f : α → Option (Res β)) : fbind (none : Option (Res α)) f = none := rfl

theorem checkTol_ok {eps : ℝ} {t : Option (FVal ℝ)} {tol : ℝ} :
    checkTol eps (tolArg t) = .ok tol ↔ EffTol eps t tol := by
  unfold EffTol
  rcases t with _ | t
  · simp [tolArg, checkTol, eq_comm]
  cases t with
  | fin x =>
    by_cases hx : x = 0
    · subst hx
      simp only [tolArg, if_true, checkTol, Res.ok.injEq]
      constructor
      · rintro rfl
        simp
      · rintro (⟨-, h⟩ | ⟨h1, h2⟩)
        · exact h.symm
        · simp only [Option.some.injEq, FVal.fin.injEq] at h1
          exact absurd h2 (by rw [← h1]; exact lt_irrefl _)
    · simp only [tolArg, checkTol, Option.some.injEq, FVal.fin.injEq, hx, if_false, or_false, reduceCtorEq, false_or,
        false_and]
      by_cases h0 : x < 0
      · rw [if_pos h0]
        simp only [reduceCtorEq, false_iff, not_and, not_lt]
        rintro rfl
        exact h0.le
      · rw [if_neg h0, Res.ok.injEq]
        refine ⟨?_, fun h => h.1⟩
        rintro rfl
        exact ⟨rfl, lt_of_le_of_ne (not_lt.1 h0) (Ne.symm hx)⟩
  | nzero => simp [tolArg, checkTol, eq_comm]
  | _ => simp [tolArg, checkTol]

theorem checkTol_ne_ub {eps : ℝ} {t : Option (FVal ℝ)} : checkTol eps (tolArg t) ≠ .ub := by
  rcases t with _ | t
  · simp [tolArg, checkTol]
  cases t with
  | fin x =>
    by_cases hx : x = 0
    · simp [tolArg, hx, checkTol]
    · simp only [tolArg, if_neg hx, checkTol]
      split_ifs <;> simp
  | _ => simp [tolArg, checkTol]

theorem orderFor_iff {tol : ℝ} (h : 0 < tol) {p : Nat} :
    OrderFor tol p ↔ (p : ℤ) = max 2 ⌈-Real.log tol / 2 + 1⌉ := by
  have key : ∀ q : Nat, Real.exp (-2 * ((q : ℝ) - 1)) ≤ tol ↔ ⌈-Real.log tol / 2 + 1⌉ ≤ (q : ℤ) := by
    intro q
    rw [Int.ceil_le, ← Real.le_log_iff_exp_le h]
    push_cast
    constructor <;> intro h <;> linarith
  unfold OrderFor
  simp only [key]
  constructor
  · rintro ⟨⟨h1, h2⟩, h3⟩
    refine le_antisymm ?_ (max_le (by exact_mod_cast h1) h2)
    have hm : (0 : ℤ) ≤ max 2 ⌈-Real.log tol / 2 + 1⌉ := le_trans (by norm_num) (le_max_left _ _)
    obtain ⟨k, hk⟩ := Int.eq_ofNat_of_zero_le hm
    rw [hk]
    have h4 : k ∈ {p : Nat | 2 ≤ p ∧ ⌈-Real.log tol / 2 + 1⌉ ≤ (p : ℤ)} := by
      constructor
      · have := le_max_left (2 : ℤ) ⌈-Real.log tol / 2 + 1⌉
        omega
      · rw [← hk]
        exact le_max_right _ _
    exact_mod_cast h3 h4
  · intro hp
    refine ⟨⟨?_, ?_⟩, ?_⟩
    · have := le_max_left (2 : ℤ) ⌈-Real.log tol / 2 + 1⌉
      omega
    · rw [hp]
      exact le_max_right _ _
    · rintro q ⟨h1, h2⟩
      have : (p : ℤ) ≤ q := by
        rw [hp]
        exact max_le (by exact_mod_cast h1) h2
      exact_mod_cast this

theorem orderFor_exists {tol : ℝ} (h : 0 < tol) : ∃ p, OrderFor tol p := by
  refine ⟨(max 2 ⌈-Real.log tol / 2 + 1⌉).toNat, (orderFor_iff h).2 ?_⟩
  exact Int.toNat_of_nonneg (le_trans (by norm_num) (le_max_left _ _))

theorem orderFromTol_eq {M : Nat} {tol : ℝ} (h : 0 < tol) {p : Nat} (hp : OrderFor tol p) :
    orderFromTol M tol = if p ≤ M then .ok p else .throw := by
  have h1 := (orderFor_iff h).1 hp
  unfold orderFromTol
  rw [if_neg (not_le.2 h)]
  simp only
  rw [← h1]
  by_cases h2 : p ≤ M
  · rw [if_pos h2, if_neg (by omega)]
    simp
  · rw [if_neg h2, if_pos (by omega)]

theorem npars_iff (a : CtorArgs) (n : Nat) :
    NPars a n ↔ IsLeast {n | ∀ i, (∃ e ∈ totFunc a, Expr.Sub (.par i) e) → i < n} n := by
  have : ∀ i, ((∃ p ∈ a.sys.eqs, Expr.Sub (.par i) p.2) ∨ ∃ e ∈ a.tFuncs ++ a.ntFuncs, Expr.Sub (.par i) e) ↔
      ∃ e ∈ totFunc a, Expr.Sub (.par i) e := by
    intro i
    unfold totFunc
    constructor
    · rintro (⟨p, hp, h⟩ | ⟨e, he, h⟩)
      · exact ⟨p.2, by simpa using .inl ⟨p.1, hp⟩, h⟩
      · exact ⟨e, by rw [List.append_assoc]; exact List.mem_append_right _ he, h⟩
    · rintro ⟨e, he, h⟩
      rw [List.append_assoc, List.mem_append] at he
      rcases he with he | he
      · obtain ⟨p, hp, rfl⟩ := List.mem_map.1 he
        exact .inl ⟨p, hp, h⟩
      · exact .inr ⟨e, he, h⟩
  unfold NPars
  simp only [this]

/-- `get_param_size()` on the representation of a list of expressions. -/
theorem getParamSize_repr (M : Nat) {ns : List (Node ℝ)} {es : List (Expr ℝ)} (h : Represents ns es) :
    ∃ N n, IsLeast {n | ∀ i, (∃ e ∈ es, Expr.Sub (.par i) e) → i < n} n ∧
      ∀ fuel, N ≤ fuel → getParamSize M fuel ns = some (if n ≤ M then .ok n else .throw) := by
  obtain ⟨h, roots, hv, hroots, rfl, hes⟩ := h
  have hex : ∀ Q : Expr ℝ → Prop, (∃ r ∈ roots, Q (h.unfold r).toExpr) ↔ ∃ e ∈ es, Q e := by
    intro Q
    subst hes
    simp
  obtain ⟨N, hN⟩ := get_param_size_exact M h hv roots hroots
  have hex' : ∀ i : Nat, (∃ r ∈ roots, Expr.Sub (.par i) (h.unfold r).toExpr) ↔ ∃ e ∈ es, Expr.Sub (.par i) e :=
    fun i => hex fun e => Expr.Sub (.par i) e
  simp only [hex'] at hN
  rcases hN with ⟨⟨i, hi, hx⟩, h2⟩ | ⟨h1, n, h2, h3⟩
  · -- the least bound exists whatever the limit
    obtain ⟨N', hN'⟩ := get_param_size_exact (M + i + 1 + (es.length + 1)) h hv roots hroots
    obtain ⟨N'', p, pb⟩ : ∃ (N : Nat) (p : List Nat), ∀ i, (∃ r ∈ roots, Expr.Sub (.par i) (h.unfold r).toExpr) → i ∈ p := by
      obtain ⟨N, idx, -, -, hx⟩ := get_params_exact h hv roots hroots
      exact ⟨N, idx, fun i hi => (hx i).2 hi⟩
    have hne : ∃ n, ∀ i, (∃ e ∈ es, Expr.Sub (.par i) e) → i < n := by
      refine ⟨p.foldr max 0 + 1, fun j hj => ?_⟩
      have hj := pb j ((hex' j).2 hj)
      have : ∀ l : List Nat, j ∈ l → j ≤ l.foldr max 0 := by
        intro l
        induction l with
        | nil => simp
        | cons a l ih =>
          intro hm
          rcases List.mem_cons.1 hm with rfl | hm
          · simp
          · simpa using .inr (ih hm)
      have := this p hj
      omega
    classical
    refine ⟨N, Nat.find hne, ⟨Nat.find_spec hne, fun m hm => Nat.find_min' hne hm⟩, fun fuel hf => ?_⟩
    have := Nat.find_spec hne i hx
    rw [h2 fuel hf, if_neg (by omega)]
  · refine ⟨N, n, h3, fun fuel hf => ?_⟩
    have : n ≤ M := by
      refine h3.2 ?_
      intro i hi
      by_contra hc
      exact h1 ⟨i, by omega, hi⟩
    rw [h2 fuel hf, if_pos this]

theorem checkPars_eq (req : Nat) (pars : List ℝ) : checkPars req pars =
    if pars = [] ∨ pars.length = req then .ok (if pars = [] then List.replicate req 0 else pars) else .throw := by
  unfold checkPars
  cases pars with
  | nil => simp
  | cons x l =>
    simp only [List.isEmpty_cons, Bool.false_eq_true, if_false, reduceCtorEq, false_or]
    by_cases h : (x :: l).length = req
    · rw [if_neg (not_not.2 h), if_pos h]
    · rw [if_pos h, if_neg h]

/-- The systems and their numbers of original equations. -/
inductive SysFor : SysArg → Nat → Prop
  | plain (sys : List (Expr ℝ × Expr ℝ)) : SysFor (.plain sys) sys.length
  | vari (vs : VSys ℝ) (names : List String) (order : Nat) : VSysOk vs names order → SysFor (.vari vs) names.length

theorem length_of_div {b n l : Nat} (hb : 0 < b) (hm : l % b = 0) : l / b = n ↔ l = b * n := by
  constructor
  · intro h
    have := Nat.div_add_mod l b
    rw [h, hm] at this
    omega
  · rintro rfl
    exact Nat.mul_div_cancel_left _ hb

theorem SysFor.nOrig {sys : SysArg} {n : Nat} (h : SysFor sys n) : sys.nOrig = .ok n := by
  cases h with
  | plain => rfl
  | vari vs names order h => exact h.dt.getNouts

theorem SysFor.le {sys : SysArg} {n : Nat} (h : SysFor sys n) : n ≤ sys.eqs.length := by
  cases h with
  | plain => exact le_refl _
  | vari vs names order h =>
    have := h.names_le
    simp only [SysArg.eqs]
    omega

theorem SysFor.pos {sys : SysArg} {n : Nat} (h : SysFor sys n) (hne : sys.eqs ≠ []) : 0 < n := by
  cases h with
  | plain => exact List.length_pos_iff.2 hne
  | vari vs names order h => exact h.dt.nouts_pos

/-- The state: rejected. -/
theorem mkState_throw {M b n : Nat} {sys : SysArg} {state : List ℝ} (h : SysFor sys n) (hb : 0 < b)
    (hm : state.length % b = 0) (hne : sys.eqs ≠ []) (hM : sys.eqs.length ≤ M)
    (hs : ¬ (state = [] ∨ state.length = b * n ∨ state.length = b * sys.eqs.length)) :
    mkState M b sys state = .throw := by
  push Not at hs
  obtain ⟨h1, h2, h3⟩ := hs
  have he : state.isEmpty = false := by cases state with
    | nil => exact absurd rfl h1
    | cons _ _ => rfl
  have hle := h.le
  unfold mkState
  rw [h.nOrig, Res.bind_ok, if_neg (by omega)]
  simp only [he, Bool.false_eq_true, if_false]
  rw [if_pos (fun hc => h3 ((length_of_div hb hm).1 hc))]
  cases h with
  | plain => rfl
  | vari vs names order h =>
    rw [growState, if_neg (fun hc => h2 ((length_of_div hb hm).1 hc))]

/-- The state: accepted. The end of the setup gives what the model of the automatic setup (C43) gives. -/
theorem mkState_ok {M b n : Nat} {sys : SysArg} {state : List ℝ} (h : SysFor sys n) (hb : 0 < b)
    (hne : sys.eqs ≠ []) (hM : sys.eqs.length ≤ M)
    (hs : state = [] ∨ state.length = b * n ∨ state.length = b * sys.eqs.length) :
    ∃ st, mkState M b sys state = .ok st ∧ st.1.length = b * sys.eqs.length ∧
      (∀ l, sys = .plain l → st.1 = if state = [] then List.replicate (b * n) 0 else state) ∧
      ∀ (vs : VSys ℝ) (fuel : Nat) (share : List (Expr ℝ) → List (Node ℝ)) (pars time : List ℝ), sys = .vari vs → time.length = b →
        finishState fuel share b sys st.2 st.1 pars time = initState fuel share vs b state pars time := by
  have hle := h.le
  have hn := h.pos hne
  have hm : state.length % b = 0 := by
    rcases hs with rfl | hs | hs
    · simp
    · rw [hs, Nat.mul_mod_right]
    · rw [hs, Nat.mul_mod_right]
  have hz : ∀ s : List ℝ, s = (if state.isEmpty then List.replicate (n * b) 0 else state) →
      s.length % b = 0 ∧ (s.length = b * n ∨ s.length = b * sys.eqs.length) ∧
        s = if state = [] then List.replicate (b * n) 0 else state := by
    rintro s rfl
    cases state with
    | nil =>
      simp only [List.isEmpty_nil, if_true, List.length_replicate]
      exact ⟨Nat.mul_mod_left _ _, .inl (Nat.mul_comm _ _), by rw [Nat.mul_comm]⟩
    | cons x l =>
      simp only [List.isEmpty_cons, Bool.false_eq_true, if_false, reduceCtorEq]
      refine ⟨hm, ?_, trivial⟩
      rcases hs with hs | hs
      · cases hs
      · exact hs
  obtain ⟨s, hseq⟩ : ∃ s : List ℝ, s = (if state.isEmpty then List.replicate (n * b) 0 else state) := ⟨_, rfl⟩
  obtain ⟨z1, z2, z3⟩ := hz s hseq
  have e1 : mkState M b sys state =
      if s.length / b ≠ sys.eqs.length then growState b n s sys else .ok (s, false) := by
    unfold mkState
    rw [h.nOrig, Res.bind_ok, if_neg (by omega), hseq]
  by_cases hl : s.length = b * sys.eqs.length
  · refine ⟨(s, false), ?_, hl, fun _ _ => z3, ?_⟩
    · rw [e1, if_neg (not_not.2 ((length_of_div hb z1).2 hl))]
    · rintro vs fuel share pars time rfl ht
      unfold finishState initState
      have := h.nOrig
      simp only [SysArg.nOrig] at this
      simp only [SysArg.eqs] at hl
      rw [if_neg (by omega), if_neg (not_not.2 hm), this]
      simp only [← hseq]
      rw [if_neg (not_not.2 ((length_of_div hb z1).2 hl)), if_neg (not_not.2 ht)]
      simp
  · have hl2 : s.length = b * n := by tauto
    cases h with
    | plain sys => exact absurd hl2 hl
    | vari vs names order h =>
      obtain ⟨st, h1, h2, -, -⟩ := varpar_ok h hb hl2
      refine ⟨(st, true), ?_, ?_, ?_, ?_⟩
      · rw [e1, if_pos (fun hc => hl ((length_of_div hb z1).1 hc))]
        rw [growState, if_pos ((length_of_div hb z1).2 hl2), h1]
        rfl
      · exact h2
      · intro l he
        cases he
      · intro vs' fuel share pars time he ht
        cases he
        unfold finishState initState
        simp only [SysArg.eqs] at hl
        rw [if_neg (by omega), if_neg (not_not.2 hm), h.dt.getNouts]
        simp only [← hseq, if_true]
        rw [if_pos (fun hc => hl ((length_of_div hb z1).1 hc)), if_pos ((length_of_div hb z1).2 hl2),
          if_neg (not_not.2 ht), h1]

theorem tcSize_eq {M M64 n p : Nat} : tcSize M M64 n p = if p < M ∧ n * (p + 1) ≤ M64 then .ok (n * (p + 1)) else .throw := by
  unfold tcSize safeAdd
  by_cases h : p + 1 ≤ M
  · rw [if_pos h, Res.bind_ok]
    by_cases h2 : n * (p + 1) ≤ M64
    · rw [if_pos h2, if_pos ⟨by omega, h2⟩]
    · rw [if_neg h2, if_neg (fun hc => h2 hc.2)]
  · rw [if_neg h, if_neg (fun hc => h (by omega))]
    rfl

theorem EffTol.unique {eps : ℝ} {t : Option (FVal ℝ)} {x y : ℝ} (h1 : EffTol eps t x) (h2 : EffTol eps t y) : x = y :=
  Res.ok.inj ((checkTol_ok.2 h1).symm.trans (checkTol_ok.2 h2))

theorem EffTol.pos {eps : ℝ} (he : 0 < eps) {t : Option (FVal ℝ)} {x : ℝ} (h : EffTol eps t x) : 0 < x := by
  rcases h with ⟨-, rfl⟩ | ⟨-, h⟩
  · exact he
  · exact h

theorem le_div_iff_mul {M b n : Nat} (hb : 0 < b) : M / b < n ↔ M < n * b := Nat.div_lt_iff_lt_mul hb

/-- The outcome of the constructor: the core of the theorems below. -/
theorem ctor_core {M M64 : Nat} {share : List (Expr ℝ) → List (Node ℝ)} {eps : ℝ} (he : 0 < eps)
    {b n : Nat} {time : TimeArg} {a : CtorArgs} (hsys : SysFor a.sys n)
    (hsh : Represents (share (totFunc a)) (totFunc a)) :
    ∃ N np, NPars a np ∧ ∀ fuel, N ≤ fuel → ∀ comp : Nat → Res Unit,
      (∀ tol p, Accepts M M64 eps b (time.values b) a n tol p np → comp p = .ok () →
        ∃ st, mkState M b a.sys a.state = .ok st ∧ st.1.length = b * a.sys.eqs.length ∧
        ctorBatch M M64 fuel share comp eps b time a =
          fbind (finishState fuel share b a.sys st.2 st.1 (if a.pars = [] then List.replicate (b * np) 0 else a.pars)
            (time.values b)) fun s =>
            some (.ok ⟨s, if a.pars = [] then List.replicate (b * np) 0 else a.pars, time.values b, List.replicate b 0,
              tol, p, a.sys.eqs.length, a.highAcc, a.compact, List.replicate b 0, b * a.sys.eqs.length * (p + 1),
              b * a.sys.eqs.length⟩)) ∧
      ((¬ ∃ tol p, Accepts M M64 eps b (time.values b) a n tol p np) → (∀ p, comp p ≠ .ub) →
        ctorBatch M M64 fuel share comp eps b time a = some .throw) := by
  obtain ⟨N, np, hnp, hN⟩ := getParamSize_repr M hsh
  have hnp' := (npars_iff a np).2 hnp
  refine ⟨N, np, hnp', fun fuel hf comp => ⟨?_, ?_⟩⟩
  · intro tol p h hc
    obtain ⟨hb, hb2⟩ := h.batch
    have hwf := (validate_ode_sys_iff _ _ _).2 h.wf
    have hne : a.sys.eqs ≠ [] := by
      obtain ⟨_, h⟩ := h.wf
      exact h.nonempty
    obtain ⟨st, s1, s2, -, -⟩ := mkState_ok hsys hb hne h.dim h.state
    refine ⟨st, s1, s2, ?_⟩
    have hm : a.state.length % b = 0 := by
      rcases h.state with h | h | h
      · simp [h]
      · rw [h, Nat.mul_mod_right]
      · rw [h, Nat.mul_mod_right]
    have hmode : (a.parallel && !a.compact) = false := by
      have := h.mode
      cases h1 : a.parallel <;> cases h2 : a.compact <;> simp_all
    have hle : np ≤ M := le_trans (Nat.le_mul_of_pos_right _ hb) h.npars.2
    have hcm : (a.compact && decide (M / b < np)) = false := by
      have : ¬ M / b < np := fun hc => by
        have := (le_div_iff_mul hb).1 hc
        have := h.npars.2
        omega
      simp [this]
    unfold ctorBatch
    rw [hwf, fbind_ok, if_neg (by omega), if_neg (not_not.2 hm), s1, fbind_ok, if_neg (not_not.2 h.time),
      checkTol_ok.2 h.tolerance, fbind_ok, if_neg (by simp [hmode]), if_neg (by have := h.dim; omega), hN fuel hf,
      if_pos hle, fbind_ok, if_neg (by simp [hcm]), if_neg (by have := h.npars.2; omega), checkPars_eq,
      if_pos (by rw [Nat.mul_comm]; exact h.pars), fbind_ok, orderFromTol_eq (h.tolerance.pos he) h.order.1,
      if_pos h.order.2.le, fbind_ok, hc, fbind_ok, tcSize_eq, s2, if_pos ⟨h.order.2, h.size⟩, fbind_ok,
      if_neg (by omega), Nat.mul_comm np b]
  · intro hna hub
    unfold ctorBatch
    by_cases hwf : ∃ names, OdeSysOk a.sys.eqs (a.tFuncs ++ a.ntFuncs) names
    swap
    · rw [validate_ode_sys_throws _ _ _ hwf, fbind_throw]
    have hne : a.sys.eqs ≠ [] := by
      obtain ⟨_, h⟩ := hwf
      exact h.nonempty
    rw [(validate_ode_sys_iff _ _ _).2 hwf, fbind_ok]
    by_cases hb0 : b = 0
    · rw [if_pos hb0]
    have hb : 0 < b := Nat.pos_of_ne_zero hb0
    rw [if_neg hb0]
    by_cases hm : a.state.length % b = 0
    swap
    · rw [if_pos hm]
    rw [if_neg (not_not.2 hm)]
    have htail : ∀ f : List ℝ × Bool → Option (Res Ta), M < a.sys.eqs.length →
        (∀ st, f st = some .throw) → fbind (some (mkState M b a.sys a.state)) f = some .throw := by
      intro f _ hf'
      cases hms : mkState M b a.sys a.state with
      | ok st => rw [fbind_ok, hf']
      | throw => rfl
      | ub =>
        exfalso
        have hz : ∀ s : List ℝ, s.length % b = 0 → growState b n s a.sys ≠ .ub := by
          intro s hs
          cases hsa : a.sys with
          | plain l => simp [growState]
          | vari vs =>
            rw [growState]
            by_cases hl : s.length / b = n
            · rw [if_pos hl]
              rw [hsa] at hsys
              cases hsys with
              | vari _ names order h =>
                obtain ⟨st, e1, -, -, -⟩ := varpar_ok h hb ((length_of_div hb hs).1 hl)
                rw [e1, Res.bind_ok]
                simp
            · rw [if_neg hl]
              simp
        obtain ⟨s, hs⟩ : ∃ s : List ℝ, s = (if a.state.isEmpty then List.replicate (n * b) 0 else a.state) := ⟨_, rfl⟩
        have hsm : s.length % b = 0 := by
          rw [hs]
          cases hst : a.state.isEmpty with
          | true => simp [Nat.mul_mod_left]
          | false => simpa using hm
        unfold mkState at hms
        rw [hsys.nOrig, Res.bind_ok] at hms
        simp only [← hs] at hms
        by_cases h1 : M < n
        · rw [if_pos h1] at hms
          cases hms
        · rw [if_neg h1] at hms
          by_cases h2 : s.length / b ≠ a.sys.eqs.length
          · rw [if_pos h2] at hms
            exact hz s hsm hms
          · rw [if_neg h2] at hms
            cases hms
    by_cases hdim : a.sys.eqs.length ≤ M
    swap
    · refine htail _ (by omega) fun st => ?_
      by_cases ht : (time.values b).length = b
      swap
      · rw [if_pos ht]
      rw [if_neg (not_not.2 ht)]
      cases hct : checkTol eps (tolArg a.tol) with
      | ok tol =>
        rw [fbind_ok]
        by_cases hmode : (a.parallel && !a.compact) = true
        · rw [if_pos hmode]
        · rw [if_neg hmode, if_pos (by omega)]
      | throw => rfl
      | ub => exact absurd hct checkTol_ne_ub
    by_cases hs : a.state = [] ∨ a.state.length = b * n ∨ a.state.length = b * a.sys.eqs.length
    swap
    · rw [mkState_throw hsys hb hm hne hdim hs, fbind_throw]
    obtain ⟨st, s1, s2, -, -⟩ := mkState_ok hsys hb hne hdim hs
    rw [s1, fbind_ok]
    by_cases ht : (time.values b).length = b
    swap
    · rw [if_pos ht]
    rw [if_neg (not_not.2 ht)]
    cases hct : checkTol eps (tolArg a.tol) with
    | throw => rfl
    | ub => exact absurd hct checkTol_ne_ub
    | ok tol =>
    have htol := checkTol_ok.1 hct
    rw [fbind_ok]
    by_cases hmode : (a.parallel && !a.compact) = true
    · rw [if_pos hmode]
    rw [if_neg hmode, if_neg (by omega), hN fuel hf]
    by_cases hle : np ≤ M
    swap
    · rw [if_neg hle, fbind_throw]
    rw [if_pos hle, fbind_ok]
    by_cases hcm : (a.compact && decide (M / b < np)) = true
    · rw [if_pos hcm]
    rw [if_neg hcm]
    by_cases hnb : np * b ≤ M
    swap
    · rw [if_pos (by omega)]
    rw [if_neg (by omega), checkPars_eq]
    by_cases hp : a.pars = [] ∨ a.pars.length = np * b
    swap
    · rw [if_neg hp, fbind_throw]
    rw [if_pos hp, fbind_ok]
    obtain ⟨p, hop⟩ := orderFor_exists (htol.pos he)
    rw [orderFromTol_eq (htol.pos he) hop]
    by_cases hpm : p ≤ M
    swap
    · rw [if_neg hpm, fbind_throw]
    rw [if_pos hpm, fbind_ok]
    cases hcp : comp p with
    | throw => rfl
    | ub => exact absurd hcp (hub p)
    | ok u =>
    rw [fbind_ok, tcSize_eq, s2]
    by_cases hsz : p < M ∧ b * a.sys.eqs.length * (p + 1) ≤ M64
    swap
    · rw [if_neg hsz, fbind_throw]
    rw [if_pos hsz, fbind_ok]
    by_cases hb2 : M / 2 < b
    · rw [if_pos hb2]
    refine absurd ⟨tol, p, hwf, ⟨hb, by omega⟩, hs, ht, htol, ⟨hop, hsz.1⟩, ?_, ⟨hnp', hnb⟩, ?_, hdim, hsz.2⟩ hna
    · intro h1
      by_contra h2
      exact hmode (by simp [h1, h2])
    · rw [Nat.mul_comm b]
      exact hp

theorem Holds.mk' {M M64 : Nat} {eps : ℝ} {b n : Nat} {times : List ℝ} {a : CtorArgs} {tol : ℝ} {p np : Nat}
    (_ : Accepts M M64 eps b times a n tol p np) (s : List (Option ℝ)) :
    Holds b times a tol p np ⟨s, if a.pars = [] then List.replicate (b * np) 0 else a.pars, times, List.replicate b 0,
      tol, p, a.sys.eqs.length, a.highAcc, a.compact, List.replicate b 0, b * a.sys.eqs.length * (p + 1),
      b * a.sys.eqs.length⟩ := by
  refine ⟨rfl, ⟨rfl, rfl⟩, rfl, rfl, rfl, ⟨rfl, rfl⟩, rfl, ?_, rfl⟩
  simp only
  ring

/-- The parameters in the negation of an expression. -/
theorem sub_par_negE {e : Expr ℝ} {i : Nat} (h : Expr.Sub (.par i) (negE e)) : Expr.Sub (.par i) e := by
  have good : ∀ (R : Nat → Prop) (e : Expr ℝ), GoodS (fun _ _ => True) (fun _ => True) R e ↔ ParsIn R e := by
    intro R e
    induction e using Expr.ind with
    | fn f args ih =>
      rw [goodS_fn, parsIn_fn]
      exact ⟨fun h a ha => (ih a ha).1 (h.2 a ha), fun h => ⟨trivial, fun a ha => (ih a ha).2 (h a ha)⟩⟩
    | _ => exact Iff.rfl
  have h1 : ParsIn (fun k => Expr.Sub (.par k) e) e := parsIn_of_sub fun _ h => h
  have hS : GradClosed (K := ℝ) (fun _ _ => True) := by constructor <;> intros <;> trivial
  have h2 := (good _ _).1 (negE_goodS hS ((good _ _).2 h1))
  exact parsIn_par h2 i ((mem_leaves _).2 ⟨h, rfl⟩)

/-! ### The theorems -/

/-- C65: **invalid arguments are rejected with an exception** (and never lead to undefined behaviour), for systems of
equations and for variational systems. `N` is enough fuel for the traversal of the expressions. -/
theorem ctor_rejects {M M64 : Nat} {share : List (Expr ℝ) → List (Node ℝ)} {eps : ℝ} (he : 0 < eps)
    {b n : Nat} {time : TimeArg} {a : CtorArgs} (hsys : SysFor a.sys n)
    (hsh : Represents (share (totFunc a)) (totFunc a))
    (h : ¬ ∃ tol p np, Accepts M M64 eps b (time.values b) a n tol p np) :
    ∃ N, ∀ fuel, N ≤ fuel → ∀ comp : Nat → Res Unit, (∀ p, comp p ≠ .ub) →
      ctorBatch M M64 fuel share comp eps b time a = some .throw := by
  obtain ⟨N, np, -, hN⟩ := ctor_core (M := M) (M64 := M64) (b := b) (time := time) he hsys hsh
  exact ⟨N, fun fuel hf comp hub => (hN fuel hf comp).2 (fun ⟨tol, p, hc⟩ => h ⟨tol, p, np, hc⟩) hub⟩

/-- C65: **valid arguments are accepted, and are what the integrator holds**: a missing state, missing times and
missing parameters are replaced with zeros. -/
theorem ctor_accepts {M M64 : Nat} {share : List (Expr ℝ) → List (Node ℝ)} {eps : ℝ} (he : 0 < eps)
    {b : Nat} {time : TimeArg} {a : CtorArgs} {sys : List (Expr ℝ × Expr ℝ)} (hsys : a.sys = .plain sys)
    (hsh : Represents (share (totFunc a)) (totFunc a)) {tol : ℝ} {p np : Nat}
    (h : Accepts M M64 eps b (time.values b) a sys.length tol p np) :
    ∃ N ta, (∀ fuel, N ≤ fuel → ∀ comp : Nat → Res Unit, comp p = .ok () →
        ctorBatch M M64 fuel share comp eps b time a = some (.ok ta)) ∧
      Holds b (time.values b) a tol p np ta ∧
      ta.state = (if a.state = [] then List.replicate (b * sys.length) 0 else a.state).map some ∧
      ta.state.length = b * ta.dim := by
  have hf : SysFor a.sys sys.length := hsys ▸ SysFor.plain sys
  obtain ⟨N, np', hnp, hN⟩ := ctor_core (M := M) (M64 := M64) (b := b) (time := time) he hf hsh
  obtain rfl : np' = np := hnp.unique h.npars.1
  have hne : a.sys.eqs ≠ [] := by
    obtain ⟨_, h⟩ := h.wf
    exact h.nonempty
  obtain ⟨st, s1, s2, s3, -⟩ := mkState_ok hf h.batch.1 hne h.dim h.state
  refine ⟨N, _, fun fuel hfu comp hc => ?_, Holds.mk' h (st.1.map some), ?_, ?_⟩
  · obtain ⟨st', e1, -, e2⟩ := (hN fuel hfu comp).1 tol p h hc
    obtain rfl : st = st' := Res.ok.inj (s1.symm.trans e1)
    rw [e2, hsys, finishState, fbind_ok]
  · simp only
    rw [s3 sys hsys]
  · simp only [List.length_map, s2]

/-- C65: the initial times: zero in all the lanes if none is passed, a single number in all the lanes, and a range as it
is. -/
theorem ctor_times (b : Nat) :
    ((TimeArg.none.values b).length = b ∧ ∀ l < b, (TimeArg.none.values b)[l]? = some 0) ∧
      (∀ t, ((TimeArg.scalar t).values b).length = b ∧ ∀ l < b, ((TimeArg.scalar t).values b)[l]? = some t) ∧
      ∀ ts, (TimeArg.range ts).values b = ts := by
  refine ⟨⟨by simp [TimeArg.values], fun l hl => by simp [TimeArg.values, hl]⟩,
    fun t => ⟨by simp [TimeArg.values], fun l hl => by simp [TimeArg.values, hl]⟩, fun ts => rfl⟩

example : (TimeArg.scalar 3).values 2 = [3, 3] := rfl

/-- C65: **all the parameters of the right-hand sides and of the event functions are in the array of the values of the
parameters**, in all the lanes. -/
theorem ctor_pars_in_bounds {M M64 : Nat} {eps : ℝ} {b n : Nat} {times : List ℝ} {a : CtorArgs} {tol : ℝ}
    {p np : Nat} (h : Accepts M M64 eps b times a n tol p np) {ta : Ta} (ht : Holds b times a tol p np ta) :
    ta.pars.length = b * np ∧
    ∀ i j, j < b → ((∃ q ∈ a.sys.eqs, Expr.Sub (.par i) q.2) ∨ ∃ e ∈ a.tFuncs ++ a.ntFuncs, Expr.Sub (.par i) e) →
      b * i + j < ta.pars.length := by
  have hl : ta.pars.length = b * np := by
    rw [ht.pars]
    by_cases h0 : a.pars = []
    · rw [if_pos h0, List.length_replicate]
    · rw [if_neg h0]
      rcases h.pars with h1 | h1
      · exact absurd h1 h0
      · exact h1
  refine ⟨hl, fun i j hj hi => ?_⟩
  have h1 : i < np := h.npars.1.1 i hi
  have h2 : b * (i + 1) ≤ b * np := Nat.mul_le_mul_left _ h1
  rw [hl]
  rw [Nat.mul_add, Nat.mul_one] at h2
  omega

/-- C65: **the constructor of variational integrators**. The state is the one given by the automatic setup of the
initial conditions (C43), for the parameters and times of the integrator. -/
theorem ctor_variational {M M64 : Nat} {share : List (Expr ℝ) → List (Node ℝ)} {eps : ℝ} (he : 0 < eps)
    {b : Nat} {time : TimeArg} {a : CtorArgs} {vs : VSys ℝ} {names : List String} {order : Nat}
    (hvs : VSysOk vs names order) (hsys : a.sys = .vari vs)
    (hsh : Represents (share (totFunc a)) (totFunc a)) {tol : ℝ} {p np : Nat}
    (h : Accepts M M64 eps b (time.values b) a names.length tol p np) :
    ∃ N ta, Holds b (time.values b) a tol p np ta ∧
      ∀ fuel, N ≤ fuel → ∀ comp : Nat → Res Unit, comp p = .ok () →
        (∀ st, initState fuel share vs b a.state ta.pars ta.timeHi = some (.ok st) →
          ctorBatch M M64 fuel share comp eps b time a = some (.ok { ta with state := st })) ∧
        (initState fuel share vs b a.state ta.pars ta.timeHi = some .throw →
          ctorBatch M M64 fuel share comp eps b time a = some .throw) := by
  have hf : SysFor a.sys names.length := hsys ▸ SysFor.vari vs names order hvs
  obtain ⟨N, np', hnp, hN⟩ := ctor_core (M := M) (M64 := M64) (b := b) (time := time) he hf hsh
  obtain rfl : np' = np := hnp.unique h.npars.1
  have hne : a.sys.eqs ≠ [] := by
    obtain ⟨_, h⟩ := h.wf
    exact h.nonempty
  obtain ⟨st, s1, s2, -, s3⟩ := mkState_ok hf h.batch.1 hne h.dim h.state
  refine ⟨N, _, Holds.mk' h [], fun fuel hfu comp hc => ?_⟩
  obtain ⟨st', e1, -, e2⟩ := (hN fuel hfu comp).1 tol p h hc
  obtain rfl : st = st' := Res.ok.inj (s1.symm.trans e1)
  rw [e2, s3 vs fuel share _ _ hsys h.time]
  constructor
  · intro s hs
    rw [hs, fbind_ok]
  · intro hs
    rw [hs, fbind_throw]

/-- C65: the state of a variational integrator constructed from the values of the original state variables, if the
initial time is not among the arguments of the variational system. -/
theorem ctor_variational_state {M M64 : Nat} {share : List (Expr ℝ) → List (Node ℝ)} {eps : ℝ} (he : 0 < eps)
    {b : Nat} {time : TimeArg} {a : CtorArgs} {vs : VSys ℝ} {names : List String} {order : Nat}
    (hvs : VSysOk vs names order) (hsys : a.sys = .vari vs) (hnt : (.fn .time [] : Expr ℝ) ∉ vs.vargs)
    (hsh : Represents (share (totFunc a)) (totFunc a)) {tol : ℝ} {p np : Nat}
    (h : Accepts M M64 eps b (time.values b) a names.length tol p np) (hst : a.state.length = b * names.length) :
    ∃ N ta, (∀ fuel, N ≤ fuel → ∀ comp : Nat → Res Unit, comp p = .ok () →
        ctorBatch M M64 fuel share comp eps b time a = some (.ok ta)) ∧
      Holds b (time.values b) a tol p np ta ∧ ta.state.length = b * ta.dim ∧
      ∀ (r j : Nat) (key : SIdx) (e : Expr ℝ), vs.dt.map[r]? = some (key, e) → j < b →
        ∃ x, ta.state[b * r + j]? = some x ∧ IcOk vs names b a.state j key x := by
  obtain ⟨N, ta, h1, h2⟩ := ctor_variational he hvs hsys hsh h
  have hti : ta.timeHi.length = b := by rw [h1.time.1]; exact h.time
  obtain ⟨st, q1, q2, q3⟩ := variational_ics hvs h.batch.1 hnt 0 share (pars := ta.pars) hst hti
  have hall : ∀ fuel, initState fuel share vs b a.state ta.pars ta.timeHi = some (.ok st) := by
    intro fuel
    obtain ⟨s0, e0, -, -, -⟩ := varpar_ok hvs h.batch.1 hst
    have : ∀ fuel, initState fuel share vs b a.state ta.pars ta.timeHi = some (.ok (s0.map some)) := by
      intro fuel
      rw [initState_eq hvs h.batch.1 fuel share hst hti e0, icsT0, find_time_none hvs hnt]
    rw [this fuel, ← this 0, q1]
  refine ⟨N, { ta with state := st }, fun fuel hf comp hc => (h2 fuel hf comp hc).1 st (hall fuel), ?_, ?_, q3⟩
  · exact ⟨h1.pars, h1.time, h1.tol, h1.order, h1.dim, h1.flags, h1.lastH, h1.tc, h1.dOut⟩
  · simp only
    rw [q2, h1.dim, hsys, SysArg.eqs, hvs.size]

/-- C65: the same if the initial time is among the arguments: this is supported at the first order only. The conditions
are those of C43; that on the parameters holds for all accepted arguments. -/
theorem ctor_variational_time {P : Fn ℝ → Prop} (hP : NameSound P) (hR : RewClosed P) {M M64 : Nat} (hM : M < 2 ^ 32)
    {share : List (Expr ℝ) → List (Node ℝ)} {eps : ℝ} (he : 0 < eps)
    {b ta : Nat} {time : TimeArg} {a : CtorArgs} {vs : VSys ℝ} {names : List String} {order : Nat}
    (hvs : VSysOk vs names order) (hsys : a.sys = .vari vs) (ht : vs.vargs[ta]? = some (.fn .time []))
    (hsh : Represents (share (totFunc a)) (totFunc a)) {tol : ℝ} {p np : Nat}
    (h : Accepts M M64 eps b (time.values b) a names.length tol p np) (hst : a.state.length = b * names.length) :
    (1 < order → ∃ N, ∀ fuel, N ≤ fuel → ∀ comp : Nat → Res Unit, comp p = .ok () →
      ctorBatch M M64 fuel share comp eps b time a = some .throw) ∧
    (order = 1 →
      ∀ es, es = (vs.sys.take names.length).map (fun p : Expr ℝ × Expr ℝ => negE p.2) →
      (∀ e ∈ es, ∀ s, s ∈ e.variables → s ∈ names) → (∀ e ∈ es, e.FnAll P) →
      Represents (share (decomposed names es)) (decomposed names es) →
      (∀ fuel dc, rawDecompose fuel share es (names.map .var) = some (.ok dc) → dc.length ≤ 2 ^ 32) →
      ∃ N int, (∀ fuel, N ≤ fuel → ∀ comp : Nat → Res Unit, comp p = .ok () →
          ctorBatch M M64 fuel share comp eps b time a = some (.ok int)) ∧
        Holds b (time.values b) a tol p np int ∧ int.state.length = b * int.dim ∧
        ∀ v : Nat → Env ℝ, (∀ j, j < b → LaneEnv names b a.state int.pars int.timeHi j (v j)) →
        ∀ (r j : Nat) (key : SIdx) (e : Expr ℝ), vs.dt.map[r]? = some (key, e) → j < b →
          ∃ x, int.state[b * r + j]? = some x ∧
            (key.2 ≠ [(ta, 1)] → IcOk vs names b a.state j key x) ∧
            (key.2 = [(ta, 1)] → ∀ lhs rhs y, vs.sys[key.1]? = some (lhs, rhs) →
              rhs.eval (v j) = some y → x = some (-y))) := by
  obtain ⟨N, int, h1, h2⟩ := ctor_variational he hvs hsys hsh h
  have hti : int.timeHi.length = b := by rw [h1.time.1]; exact h.time
  obtain ⟨c1, c2⟩ := variational_ics_time hP hR hvs ht h.batch.1 share (pars := int.pars) hst hti
  refine ⟨fun ho => ⟨N, fun fuel hf comp hc => (h2 fuel hf comp hc).2 (c1 ho fuel)⟩, ?_⟩
  intro ho es hes hcov hg hre hlen
  have hin := ctor_pars_in_bounds h h1
  have hpar : ∀ i, (∃ e ∈ es, Expr.Sub (.par i) e) → b * i < int.pars.length ∧ i < 2 ^ 32 := by
    rintro i ⟨e, hmem, hs⟩
    rw [hes] at hmem
    obtain ⟨q, hq, rfl⟩ := List.mem_map.1 hmem
    have hq' : q ∈ a.sys.eqs := by
      rw [hsys]
      exact List.mem_of_mem_take hq
    have hs' : (∃ q ∈ a.sys.eqs, Expr.Sub (.par i) q.2) ∨ ∃ e ∈ a.tFuncs ++ a.ntFuncs, Expr.Sub (.par i) e :=
      .inl ⟨q, hq', sub_par_negE hs⟩
    have hb := h.batch.1
    refine ⟨by simpa using hin.2 i 0 hb hs', ?_⟩
    have h3 : i < np := h.npars.1.1 i hs'
    have h4 : np ≤ M := le_trans (Nat.le_mul_of_pos_right _ hb) h.npars.2
    omega
  -- the state does not depend on the description of the values
  have hlane : ∃ v : Nat → Env ℝ, ∀ j, j < b → LaneEnv names b a.state int.pars int.timeHi j (v j) := by
    refine ⟨fun j => ⟨fun s => (a.state[b * names.idxOf s + j]?).getD 0, fun i => (int.pars[b * i + j]?).getD 0,
      (int.timeHi[j]?).getD 0⟩, fun j hj => ⟨fun i s hs => ?_, fun i hi => ?_, ?_⟩⟩
    · obtain ⟨hi, rfl⟩ := List.getElem?_eq_some_iff.1 hs
      simp only
      rw [hvs.nodup.idxOf_getElem]
      have : b * i + j < a.state.length := by
        rw [hst]
        have : b * (i + 1) ≤ b * names.length := Nat.mul_le_mul_left _ hi
        rw [Nat.mul_add, Nat.mul_one] at this
        omega
      rw [List.getElem?_eq_getElem this]
      rfl
    · have : b * i + j < int.pars.length := by
        rw [hin.1] at hi ⊢
        have h5 : i < np := Nat.lt_of_mul_lt_mul_left hi
        have : b * (i + 1) ≤ b * np := Nat.mul_le_mul_left _ h5
        rw [Nat.mul_add, Nat.mul_one] at this
        omega
      simp only
      rw [List.getElem?_eq_getElem this]
      rfl
    · have : j < int.timeHi.length := by omega
      simp only
      rw [List.getElem?_eq_getElem this]
      rfl
  obtain ⟨v0, hv0⟩ := hlane
  obtain ⟨N1, st, w1, w2, -⟩ := c2 ho es hes hcov hg hre hlen hpar v0 hv0
  refine ⟨max N N1, { int with state := st }, fun fuel hf comp hc =>
    (h2 fuel (le_trans (le_max_left _ _) hf) comp hc).1 st (w1 fuel (le_trans (le_max_right _ _) hf)), ?_, ?_, ?_⟩
  · exact ⟨h1.pars, h1.time, h1.tol, h1.order, h1.dim, h1.flags, h1.lastH, h1.tc, h1.dOut⟩
  · simp only
    rw [w2, h1.dim, hsys, SysArg.eqs, hvs.size]
  · intro v hv
    obtain ⟨N2, st2, y1, -, y3⟩ := c2 ho es hes hcov hg hre hlen hpar v hv
    have := (w1 (max N1 N2) (le_max_left _ _)).symm.trans (y1 (max N1 N2) (le_max_right _ _))
    obtain rfl : st = st2 := Res.ok.inj (Option.some.inj this)
    exact y3

/-- C65: **the constructor of the scalar integrator does the same as that of the batch integrator for one lane.** -/
theorem ctor_scalar {M M64 : Nat} (hM : 2 ≤ M) {share : List (Expr ℝ) → List (Node ℝ)} {eps : ℝ} (he : 0 < eps)
    {n : Nat} {time : Option ℝ} {a : CtorArgs} (hsys : SysFor a.sys n)
    (hsh : Represents (share (totFunc a)) (totFunc a)) :
    ∃ N, ∀ fuel, N ≤ fuel → ∀ comp : Nat → Res Unit, (∀ p, comp p ≠ .ub) →
      ctorScalar M M64 fuel share comp eps time a =
        ctorBatch M M64 fuel share comp eps 1 (match time with | none => .none | some t => .scalar t) a := by
  obtain ⟨N, np, hnp, hN⟩ := getParamSize_repr M hsh
  refine ⟨N, fun fuel hf comp hub => ?_⟩
  have hti : TimeArg.values 1 (match time with | none => TimeArg.none | some t => TimeArg.scalar t) = [time.getD 0] := by
    cases time <;> rfl
  unfold ctorScalar ctorBatch
  simp only [hti]
  cases hv : validateOdeSys a.sys.eqs a.tFuncs a.ntFuncs with
  | throw => rfl
  | ub => rfl
  | ok u =>
  rw [fbind_ok, fbind_ok, if_neg (show ¬ (1 : Nat) = 0 by norm_num),
    if_neg (show ¬ a.state.length % 1 ≠ 0 by simp [Nat.mod_one])]
  cases hs : mkState M 1 a.sys a.state with
  | throw => rfl
  | ub => rfl
  | ok st =>
  rw [fbind_ok, fbind_ok, if_neg (show ¬ [time.getD 0].length ≠ 1 by simp), hN fuel hf]
  have hthrow : ∀ (x : Res ℝ) (f : ℝ → Option (Res Ta)), x ≠ .ub → (∀ y, f y = some .throw) →
      fbind (some x) f = some .throw := by
    intro x f hx hf
    cases x with
    | ok y => rw [fbind_ok, hf]
    | throw => rfl
    | ub => exact absurd rfl hx
  by_cases hle : np ≤ M
  swap
  · rw [if_neg hle, fbind_throw, hthrow _ _ checkTol_ne_ub]
    intro y
    simp only [fbind_throw, ite_self]
  rw [if_pos hle, fbind_ok, checkPars_eq]
  simp only [fbind_ok, Nat.mul_one, Nat.div_one, checkPars_eq]
  by_cases hp : a.pars = [] ∨ a.pars.length = np
  swap
  · rw [if_neg hp, fbind_throw, hthrow _ _ checkTol_ne_ub]
    intro y
    simp only [fbind_throw, ite_self]
  rw [if_pos hp, fbind_ok]
  have h1 : (a.compact && decide (M < np)) = false := by
    have : ¬ M < np := by omega
    simp [this]
  simp only [h1, Bool.false_eq_true, if_false, fbind_ok, if_neg (show ¬ M < np by omega),
    if_neg (show ¬ M / 2 < 1 by omega), List.replicate_one]

/-! ### Non-vacuity -/

theorem orderFor_ex : OrderFor (Real.exp (-10)) 6 := by
  refine ⟨⟨by norm_num, by norm_num⟩, ?_⟩
  rintro q ⟨-, hq⟩
  rw [Real.exp_le_exp] at hq
  have : (6 : ℝ) ≤ q := by linarith
  exact_mod_cast this

/-- The system `x' = p0 * x` with two lanes, a tolerance and an event. -/
noncomputable def exArgs : CtorArgs where
  sys := .plain [(.var "x", .fn (.prod false) [.par 0, .var "x"])]
  state := [1, 2]
  tol := some (.fin (Real.exp (-10)))
  pars := []
  tFuncs := [.var "x"]
  ntFuncs := []
  highAcc := false
  compact := true
  parallel := true

theorem npars_one {a : CtorArgs} (h1 : ∃ p ∈ a.sys.eqs, Expr.Sub (.par 0) p.2)
    (h2 : ∀ i, ((∃ p ∈ a.sys.eqs, Expr.Sub (.par i) p.2) ∨ ∃ e ∈ a.tFuncs ++ a.ntFuncs, Expr.Sub (.par i) e) → i = 0) :
    NPars a 1 :=
  ⟨fun i hi => by rw [h2 i hi]; norm_num, fun _ hm => hm 0 (.inl h1)⟩

theorem sub_par_leaf {e : Expr ℝ} {i : Nat} (h : Expr.Sub (.par i) e) : Expr.par i ∈ e.leaves :=
  (mem_leaves e).2 ⟨h, rfl⟩

theorem exArgs_accepts : Accepts (2 ^ 32 - 1) (2 ^ 64 - 1) 1 2 (TimeArg.none.values 2) exArgs 1 (Real.exp (-10)) 6 1 where
  wf := ⟨["x"], by simp [exArgs, SysArg.eqs], rfl, by simp,
    by intro s hs r; simp only [List.mem_singleton] at hs; subst hs; simp,
    by
      intro p hp s hs
      simp only [exArgs, SysArg.eqs, List.mem_singleton] at hp
      subst hp
      simpa [Expr.leaves, Expr.leavesL] using hs,
    by
      intro e he s hs
      simp only [exArgs, List.append_nil, List.mem_singleton] at he
      subst he
      simpa [Expr.leaves] using hs⟩
  batch := by norm_num
  state := by simp [exArgs]
  time := by simp [TimeArg.values]
  tolerance := .inr ⟨rfl, Real.exp_pos _⟩
  order := ⟨orderFor_ex, by norm_num⟩
  mode := fun _ => rfl
  npars := by
    refine ⟨npars_one ⟨_, List.mem_singleton.2 rfl, .arg (List.mem_cons_self) .refl⟩ ?_, by norm_num⟩
    rintro i (⟨p, hp, h⟩ | ⟨e, he, h⟩)
    · simp only [exArgs, SysArg.eqs, List.mem_singleton] at hp
      subst hp
      simpa [Expr.leaves, Expr.leavesL] using sub_par_leaf h
    · simp only [exArgs, List.append_nil, List.mem_singleton] at he
      subst he
      simpa [Expr.leaves] using sub_par_leaf h
  pars := .inl rfl
  dim := by simp [exArgs, SysArg.eqs]
  size := by simp [exArgs, SysArg.eqs]

/-- An integrator is constructed from these arguments. -/
example : ∃ (share : List (Expr ℝ) → List (Node ℝ)) (N : Nat) (ta : Ta),
    ctorBatch (2 ^ 32 - 1) (2 ^ 64 - 1) N share (fun _ => .ok ()) 1 2 .none exArgs = some (.ok ta) ∧
      ta.state = [some 1, some 2] ∧ ta.pars = [0, 0] ∧ ta.timeHi = [0, 0] ∧ ta.order = 6 ∧ ta.tcSize = 14 := by
  obtain ⟨share, hsh⟩ := exists_share
  obtain ⟨N, ta, h1, h2, h3, -⟩ := ctor_accepts (sys := [(.var "x", .fn (.prod false) [.par 0, .var "x"])]) one_pos rfl
    (hsh (totFunc exArgs)) exArgs_accepts
  refine ⟨share, N, ta, h1 N (le_refl _) _ rfl, ?_, ?_, ?_, h2.order, ?_⟩
  · rw [h3]
    simp [exArgs]
  · rw [h2.pars]
    simp [exArgs, List.replicate]
  · rw [h2.time.1]
    simp [TimeArg.values, List.replicate]
  · rw [h2.tc, h2.dim, h2.order]
    simp [exArgs, SysArg.eqs]

/-- With a tolerance which is not a number, there is an exception. -/
example : ∃ (share : List (Expr ℝ) → List (Node ℝ)) (N : Nat),
    ctorBatch (2 ^ 32 - 1) (2 ^ 64 - 1) N share (fun _ => .ok ()) 1 2 .none { exArgs with tol := some .nan } =
      some .throw := by
  obtain ⟨share, hsh⟩ := exists_share
  obtain ⟨N, hN⟩ := ctor_rejects (M := 2 ^ 32 - 1) (M64 := 2 ^ 64 - 1) (b := 2) (time := .none) (eps := 1)
    (a := { exArgs with tol := some .nan }) one_pos (SysFor.plain _) (hsh _) (by
      rintro ⟨tol, p, np, h⟩
      rcases h.tolerance with ⟨h | h | h, -⟩ | ⟨h, -⟩ <;> simp at h)
  exact ⟨share, N, hN N (le_refl _) _ (by simp)⟩

/-- Variational arguments: the values of the original state variable in one lane. -/
noncomputable def exVArgs : CtorArgs where
  sys := .vari exVSys
  state := [3]
  tol := none
  pars := [2]
  tFuncs := []
  ntFuncs := []
  highAcc := false
  compact := false
  parallel := false

theorem exVArgs_accepts : Accepts (2 ^ 32 - 1) (2 ^ 64 - 1) (Real.exp (-10)) 1 (TimeArg.none.values 1) exVArgs 1
    (Real.exp (-10)) 6 1 where
  wf := ⟨["x", "∂x_x", "∂x_t"], by simp [exVArgs, SysArg.eqs, exVSys], rfl, by decide,
    by
      intro s hs r
      simp only [List.mem_cons, List.not_mem_nil, or_false] at hs
      rcases hs with rfl | rfl | rfl <;> simp,
    by
      intro p hp s hs
      simp only [exVArgs, SysArg.eqs, exVSys, List.mem_cons, List.not_mem_nil, or_false] at hp
      rcases hp with rfl | rfl | rfl <;> (simp [Expr.leaves, Expr.leavesL] at hs; simp [hs]),
    by
      intro e he
      simp [exVArgs] at he⟩
  batch := by norm_num
  state := by simp [exVArgs]
  time := by simp [TimeArg.values]
  tolerance := .inl ⟨.inl rfl, rfl⟩
  order := ⟨orderFor_ex, by norm_num⟩
  mode := fun h => by cases h
  npars := by
    refine ⟨npars_one ⟨_, List.mem_cons_self, .arg (List.mem_cons_self) .refl⟩ ?_, by norm_num⟩
    rintro i (⟨p, hp, h⟩ | ⟨e, he, h⟩)
    · simp only [exVArgs, SysArg.eqs, exVSys, List.mem_cons, List.not_mem_nil, or_false] at hp
      rcases hp with rfl | rfl | rfl <;> simpa [Expr.leaves, Expr.leavesL] using sub_par_leaf h
    · simp [exVArgs] at he
  pars := .inr rfl
  dim := by simp [exVArgs, SysArg.eqs, exVSys]
  size := by simp [exVArgs, SysArg.eqs, exVSys]

/-- The hypotheses of the theorems on variational integrators are met. -/
example : VSysOk exVSys ["x"] 1 ∧ exVArgs.sys = .vari exVSys ∧ exVSys.vargs[1]? = some (.fn .time []) ∧
    exVArgs.state.length = 1 * ["x"].length := ⟨exVSys_ok, rfl, rfl, rfl⟩

end Heyoka.Sym

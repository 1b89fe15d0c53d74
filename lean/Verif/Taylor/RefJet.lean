import Verif.Taylor.Both4
import Verif.Taylor.Congr
import Verif.Taylor.CJet
import Verif.Taylor.WfDec

/-!
# The default mode on well-formed decompositions

On a well-formed decomposition the default mode computes the derivatives one after another, without errors. The sequence
of values is the reference for the compact mode.
-/

set_option linter.unusedSectionVars false
set_option linter.unusedSimpArgs false
set_option linter.unusedVariables false

namespace Heyoka.Taylor

open Heyoka.Sym

variable {K : Type}

section
variable [Field K] [LinearOrder K] [FloorRing K] [Interp K] [CodeInterp K] [TConst K]

/-- The recurrence of an element in compact mode. -/
def elemDiffC (par : Nat → K) (time : K) (rd : Nat → Nat → Res (V K)) (order i : Nat) (e : TElem K) : Res (V K) :=
  match e.1 with
  | .fn f es => do
    let as ← targs par es
    taylorDiffC time rd order i e.2 (cfun f es) as
  | _ => .throw

/-- The value of a successful computation. -/
def okVal : Res (V K) → V K
  | .ok x => x
  | _ => V.nan

/-- The value at position `p` of the array of derivatives, given the previous ones. -/
def refVal (par : Nat → K) (time : K) (neq : Nat) (dc : TDc K) (state : List K) (pre : List (V K)) (p : Nat) : V K :=
  let nu := dc.length - neq
  let u := p % nu
  let o := p / nu
  if u < neq then
    if o = 0 then (match state[u]? with
      | some x => V.fin x
      | none => V.nan)
    else (match dc[nu + u]? with
      | some e => okVal (svDiff par (fetch pre nu) o e.1)
      | none => V.nan)
  else (match dc[u]? with
    | some e => okVal (elemDiff par time (fetch pre nu) o u e)
    | none => V.nan)

/-- The first values of the array of derivatives. -/
def refArr (par : Nat → K) (time : K) (neq : Nat) (dc : TDc K) (state : List K) : Nat → List (V K)
  | 0 => []
  | l + 1 => refArr par time neq dc state l ++
      [refVal par time neq dc state (refArr par time neq dc state l) l]

/-- The derivative of order `o` of the variable `u`. -/
def refG (par : Nat → K) (time : K) (neq : Nat) (dc : TDc K) (state : List K) (u o : Nat) : V K :=
  refVal par time neq dc state (refArr par time neq dc state (o * (dc.length - neq) + u)) (o * (dc.length - neq) + u)

variable {par : Nat → K} {time : K} {neq : Nat} {dc : TDc K} {state : List K}

theorem refArr_length (l : Nat) : (refArr par time neq dc state l).length = l := by
  induction l with
  | zero => rfl
  | succ l ih => rw [refArr, List.length_append, ih]; rfl

theorem refArr_get {p l : Nat} (h : p < l) : (refArr par time neq dc state l)[p]? =
    some (refVal par time neq dc state (refArr par time neq dc state p) p) := by
  induction l with
  | zero => omega
  | succ l ih =>
    rw [refArr]
    rcases Nat.lt_succ_iff_lt_or_eq.1 h with h | h
    · rw [List.getElem?_append_left (by rw [refArr_length]; exact h), ih h]
    · subst h
      rw [List.getElem?_append_right (by rw [refArr_length]), refArr_length, Nat.sub_self]
      rfl

theorem fetch_ref {u o l : Nat} (hu : u < dc.length - neq) (hl : o * (dc.length - neq) + u < l) :
    fetch (refArr par time neq dc state l) (dc.length - neq) u o = .ok (refG par time neq dc state u o) := by
  rw [fetch, if_pos hu, refArr_get hl]
  rfl

theorem idx_lt {nu u o u' o' : Nat} (hu : u < nu) (h : o < o') : o * nu + u < o' * nu + u' := by
  have := Nat.mul_le_mul_right nu (Nat.succ_le_of_lt h)
  rw [Nat.succ_mul] at this
  omega

theorem refG_state {u : Nat} (hu : u < neq) (hn : neq ≤ dc.length - neq) {x : K} (hx : state[u]? = some x) :
    refG par time neq dc state u 0 = V.fin x := by
  unfold refG refVal
  simp only [Nat.zero_mul, Nat.zero_add]
  rw [Nat.mod_eq_of_lt (by omega), Nat.div_eq_of_lt (by omega), if_pos hu, if_pos rfl, hx]

theorem refG_sv {u o : Nat} (hu : u < neq) (hn : neq ≤ dc.length - neq) (ho : o ≠ 0) {e : TElem K}
    (he : dc[dc.length - neq + u]? = some e) :
    refG par time neq dc state u o = okVal (svDiff par (fetch (refArr par time neq dc state (o * (dc.length - neq) + u))
      (dc.length - neq)) o e.1) := by
  have h1 : (o * (dc.length - neq) + u) % (dc.length - neq) = u := by
    rw [Nat.mul_comm, Nat.mul_add_mod, Nat.mod_eq_of_lt (by omega)]
  have h2 : (o * (dc.length - neq) + u) / (dc.length - neq) = o := by
    rw [Nat.mul_comm, Nat.mul_add_div (by omega), Nat.div_eq_of_lt (by omega), Nat.add_zero]
  unfold refG
  conv_lhs => unfold refVal
  simp only [h1, h2]
  rw [if_pos hu, if_neg ho, he]

theorem refG_elem {u o : Nat} (hu : neq ≤ u) (hn : u < dc.length - neq) {e : TElem K} (he : dc[u]? = some e) :
    refG par time neq dc state u o = okVal (elemDiff par time
      (fetch (refArr par time neq dc state (o * (dc.length - neq) + u)) (dc.length - neq)) o u e) := by
  have h1 : (o * (dc.length - neq) + u) % (dc.length - neq) = u := by
    rw [Nat.mul_comm, Nat.mul_add_mod, Nat.mod_eq_of_lt hn]
  have h2 : (o * (dc.length - neq) + u) / (dc.length - neq) = o := by
    rw [Nat.mul_comm, Nat.mul_add_div (by omega), Nat.div_eq_of_lt hn, Nat.add_zero]
  unfold refG
  conv_lhs => unfold refVal
  simp only [h1, h2]
  rw [if_neg (by omega), he]

theorem refArr_succ (l : Nat) {u o : Nat} (hl : l = o * (dc.length - neq) + u) :
    refArr par time neq dc state l ++ [refG par time neq dc state u o] = refArr par time neq dc state (l + 1) := by
  subst hl
  rw [refArr]
  rfl

theorem targs_ok {i : Nat} (hi : i ≤ 2 ^ 32) : ∀ {es : List (Expr K)}, (∀ a ∈ es, ArgOk i a) →
    ∃ as, targs par es = .ok as ∧ ∀ j, TArg.u j ∈ as → j < i
  | [], _ => ⟨[], rfl, by simp⟩
  | a :: es, h => by
    obtain ⟨as, h1, h2⟩ := targs_ok hi fun x hx => h x (List.mem_cons_of_mem _ hx)
    have h0 := h a List.mem_cons_self
    cases a with
    | num x =>
      refine ⟨.cst true (V.ofOption x.toK?) :: as, by simp [targs, targ, h1, Res.bind_eq, Res.pure_eq], fun j hj => ?_⟩
      rcases List.mem_cons.1 hj with hj | hj
      · cases hj
      · exact h2 j hj
    | par k =>
      refine ⟨.cst false (V.fin (par k)) :: as, by simp [targs, targ, h1, Res.bind_eq, Res.pure_eq], fun j hj => ?_⟩
      rcases List.mem_cons.1 hj with hj | hj
      · cases hj
      · exact h2 j hj
    | var s =>
      obtain ⟨k, hk, rfl⟩ := h0
      refine ⟨.u k :: as, ?_, fun j hj => ?_⟩
      · simp [targs, targ, h1, Res.bind_eq, Res.pure_eq, unameToIndex_uname, show k < 4294967296 by omega]
      · rcases List.mem_cons.1 hj with hj | hj
        · cases hj; exact hk
        · exact h2 j hj
    | fn f bs => exact h0.elim

/-- The `u` variables among the arguments of an element. -/
def usesVar (e : TElem K) (j : Nat) : Prop := ∃ f es, e.1 = .fn f es ∧ .var (uname j) ∈ es

theorem targs_uses {i : Nat} (hi : i ≤ 2 ^ 32) : ∀ {es : List (Expr K)}, (∀ a ∈ es, ArgOk i a) → ∀ {as : List (TArg K)},
    targs par es = .ok as → ∀ j, TArg.u j ∈ as → Expr.var (uname j) ∈ es
  | [], _, as, h, j, hj => by
    simp only [targs, Res.ok.injEq] at h
    subst h
    cases hj
  | a :: es, ha, as, h, j, hj => by
    obtain ⟨as', h1, -⟩ := targs_ok (par := par) hi fun x hx => ha x (List.mem_cons_of_mem _ hx)
    have h0 := ha a List.mem_cons_self
    have ih := targs_uses hi (fun x hx => ha x (List.mem_cons_of_mem _ hx)) h1
    cases a with
    | num x =>
      simp [targs, targ, h1, Res.bind_eq, Res.pure_eq] at h
      subst h
      rcases List.mem_cons.1 hj with hj | hj
      · cases hj
      · exact List.mem_cons_of_mem _ (ih j hj)
    | par k =>
      simp [targs, targ, h1, Res.bind_eq, Res.pure_eq] at h
      subst h
      rcases List.mem_cons.1 hj with hj | hj
      · cases hj
      · exact List.mem_cons_of_mem _ (ih j hj)
    | var s =>
      obtain ⟨k, hk, rfl⟩ := h0
      simp [targs, targ, h1, Res.bind_eq, Res.pure_eq, unameToIndex_uname, show k < 4294967296 by omega] at h
      subst h
      rcases List.mem_cons.1 hj with hj | hj
      · cases hj; exact List.mem_cons_self
      · exact List.mem_cons_of_mem _ (ih j hj)
    | fn f bs => exact h0.elim

/-- The elements which are not state variables are functions. -/
def FnMid (neq : Nat) (dc : TDc K) : Prop :=
  ∀ (i : Nat) (e : TElem K), dc[i]? = some e → neq ≤ i → i < dc.length - neq → ∃ f es, e.1 = .fn f es

variable {L : Fn K → Prop} {svf : List Nat}
variable [IsStrictOrderedRing K]

/-- The derivative of order `n` of an element, in the two modes. -/
theorem elem_both (hP : PowSound K) (hdc : SSysOk L neq dc svf) (hfn : FnMid neq dc) (hsz : dc.length ≤ 2 ^ 32)
    {u n : Nat} {e : TElem K} (he : dc[u]? = some e) (hu : neq ≤ u) (hun : u < dc.length - neq)
    {rd : Nat → Nat → Res (V K)} {g : Nat → Nat → V K} (hself : RdK rd g u n) (hdep : ∀ d ∈ e.2, RdK rd g d n)
    (harg : ∀ j, usesVar e j → RdK rd g j (n + 1)) :
    Both (elemDiff par time rd n u e) (elemDiffC par time rd n u e) := by
  obtain ⟨f, es, hfe⟩ := hfn u e he hu hun
  have hok := hdc.elem u e he hu hun
  rcases hok.ok with ⟨f', es', h1, h2, h3, h4⟩ | ⟨m, hm⟩
  · rw [hfe] at h1
    injection h1 with h1 h1'
    subst h1 h1'
    replace h2 := fun a ha => (h2 a ha).ok
    obtain ⟨as, h5, h6⟩ := targs_ok (par := par) (i := u) (by omega) h2
    have := taylorDiff_both (time := time) hP h3 h5 h4 hself hdep fun i hi =>
      harg i ⟨f, es, hfe, targs_uses (by omega) h2 h5 i hi⟩
    simpa only [elemDiff, elemDiffC, hfe, h5, Res.bind_eq, Res.bind_ok] using this
  · rw [hfe] at hm
    cases hm

theorem elem_ref (hP : PowSound K) (hdc : SSysOk L neq dc svf) (hfn : FnMid neq dc) (hsz : dc.length ≤ 2 ^ 32)
    {u n : Nat} {e : TElem K} (he : dc[u]? = some e) (hu : neq ≤ u) (hun : u < dc.length - neq)
    {rd : Nat → Nat → Res (V K)} (hself : RdK rd (refG par time neq dc state) u n)
    (hdep : ∀ d ∈ e.2, RdK rd (refG par time neq dc state) d n)
    (harg : ∀ j, usesVar e j → RdK rd (refG par time neq dc state) j (n + 1)) :
    elemDiff par time rd n u e = .ok (refG par time neq dc state u n) ∧
      elemDiffC par time rd n u e = .ok (refG par time neq dc state u n) := by
  obtain ⟨v, h1, h2⟩ := elem_both (par := par) (time := time) hP hdc hfn hsz he hu hun hself hdep harg
  have hok := hdc.elem u e he hu hun
  obtain ⟨f, es, hfe⟩ := hfn u e he hu hun
  rcases hok.ok with ⟨f', es', h3, h4, -⟩ | ⟨m, hm⟩
  · rw [hfe] at h3
    injection h3 with h3 h3'
    subst h3 h3'
    replace h4 := fun a ha => (h4 a ha).ok
    obtain ⟨as, h5, h6⟩ := targs_ok (par := par) (i := u) (by omega) h4
    have hc : elemDiff par time (fetch (refArr par time neq dc state (n * (dc.length - neq) + u)) (dc.length - neq)) n u e
        = elemDiff par time rd n u e := by
      simp only [elemDiff, hfe, h5, Res.bind_eq, Res.bind_ok]
      refine taylorDiff_congr time f ?_ ?_ ?_
      · intro o ho
        rw [hself o ho, fetch_ref hun (idx_lt hun ho)]
      · intro d hd o ho
        rw [hdep d hd o ho, fetch_ref (hok.deps d hd) (idx_lt (hok.deps d hd) ho)]
      · intro i hi o ho
        have hi' := h6 i hi
        rw [harg i ⟨f, es, hfe, targs_uses (by omega) h4 h5 i hi⟩ o ho]
        rcases Nat.lt_succ_iff_lt_or_eq.1 ho with ho | ho
        · exact fetch_ref (by omega) (idx_lt (by omega) ho)
        · subst ho
          exact fetch_ref (by omega) (by omega)
    have hv : refG par time neq dc state u n = v := by
      rw [refG_elem hu hun he, hc, h1]
      rfl
    rw [hv]
    exact ⟨h1, h2⟩
  · rw [hfe] at hm
    cases hm

theorem sv_ref (hdc : SSysOk L neq dc svf) (hsz : dc.length ≤ 2 ^ 32) {u n : Nat} {e : TElem K} (hn : n ≠ 0)
    (hu : u < neq) (he : dc[dc.length - neq + u]? = some e) {rd : Nat → Nat → Res (V K)}
    (hrd : ∀ j, e.1 = .var (uname j) → rd j (n - 1) = .ok (refG par time neq dc state j (n - 1))) :
    svDiff par rd n e.1 = .ok (refG par time neq dc state u n) := by
  have hlen := hdc.len
  have ho := (hdc.outs u e hu he).2
  have hG := refG_sv (par := par) (time := time) (state := state) hu (by omega) hn he
  rw [hG]
  cases h : e.1 with
  | var s =>
    rw [h] at ho
    obtain ⟨j, hj, rfl⟩ := ho
    have h1 := hrd j h
    have h2 : fetch (refArr par time neq dc state (n * (dc.length - neq) + u)) (dc.length - neq) j (n - 1) =
        .ok (refG par time neq dc state j (n - 1)) := fetch_ref hj (idx_lt hj (by omega))
    simp [svDiff, unameToIndex_uname, show j < 4294967296 by omega, Res.bind_eq, Res.pure_eq, h1, h2, okVal]
  | num x => rfl
  | par k => rfl
  | fn f es => rw [h] at ho; exact ho.elim

/-! ### The default mode -/

theorem elemsDiff_ref (hP : PowSound K) (hdc : SSysOk L neq dc svf) (hfn : FnMid neq dc) (hsz : dc.length ≤ 2 ^ 32)
    {n : Nat} (es : TDc K) : ∀ u, neq ≤ u → u + es.length ≤ dc.length - neq →
    (∀ (k : Nat) (e : TElem K), es[k]? = some e → dc[u + k]? = some e) →
    elemsDiff par time (dc.length - neq) n u es (refArr par time neq dc state (n * (dc.length - neq) + u)) =
      .ok (refArr par time neq dc state (n * (dc.length - neq) + u + es.length)) := by
  induction es with
  | nil => intro u _ _ _; rfl
  | cons e es ih =>
    intro u hu hl hes
    simp only [List.length_cons] at hl
    have he : dc[u]? = some e := by simpa using hes 0 e rfl
    have hok := hdc.elem u e he hu (by omega)
    obtain ⟨f, fs, hfe⟩ := hfn u e he hu (by omega)
    have h1 := (elem_ref (par := par) (time := time) (state := state) (n := n)
      (rd := fetch (refArr par time neq dc state (n * (dc.length - neq) + u)) (dc.length - neq)) hP hdc hfn hsz he hu
      (by omega) (fun o ho => fetch_ref (by omega) (idx_lt (by omega) ho))
      (fun d hd o ho => fetch_ref (hok.deps d hd) (idx_lt (hok.deps d hd) ho)) (fun j hj o ho => by
        have hju : j < u := by
          obtain ⟨f', fs', h1, h2⟩ := hj
          rcases hok.ok with ⟨f'', es'', h3, h4, -⟩ | ⟨m, hm⟩
          · rw [h1] at h3
            injection h3 with h3 h3'
            subst h3'
            obtain ⟨k, hk, hku⟩ := h4 _ h2
            rw [uname_inj hku]
            exact hk
          · rw [h1] at hm; cases hm
        rcases Nat.lt_succ_iff_lt_or_eq.1 ho with ho | ho
        · exact fetch_ref (by omega) (idx_lt (by omega) ho)
        · subst ho
          exact fetch_ref (by omega) (by omega))).1
    rw [elemsDiff, h1, Res.bind_eq, Res.bind_ok, refArr_succ _ rfl]
    have := ih (u + 1) (by omega) (by omega) fun k e' hk => by
      have := hes (k + 1) e' (by simpa using hk)
      rwa [show u + 1 + k = u + (k + 1) by omega]
    rw [show n * (dc.length - neq) + u + 1 = n * (dc.length - neq) + (u + 1) by omega, this, List.length_cons]
    congr 2
    omega

theorem svsDiff_ref (hdc : SSysOk L neq dc svf) (hsz : dc.length ≤ 2 ^ 32) {n : Nat} (hn : n ≠ 0) (es : TDc K) :
    ∀ u, u + es.length ≤ neq → (∀ (k : Nat) (e : TElem K), es[k]? = some e → dc[dc.length - neq + (u + k)]? = some e) →
    svsDiff par (dc.length - neq) n es (refArr par time neq dc state (n * (dc.length - neq) + u)) =
      .ok (refArr par time neq dc state (n * (dc.length - neq) + u + es.length)) := by
  induction es with
  | nil => intro u _ _; rfl
  | cons e es ih =>
    intro u hl hes
    have hlen := hdc.len
    simp only [List.length_cons] at hl
    have he : dc[dc.length - neq + u]? = some e := by simpa using hes 0 e rfl
    have h1 := sv_ref (par := par) (time := time) (state := state) (n := n)
      (rd := fetch (refArr par time neq dc state (n * (dc.length - neq) + u)) (dc.length - neq)) hdc hsz hn
      (by omega) he fun j hj => by
        have := (hdc.outs u e (by omega) he).2
        rw [hj] at this
        obtain ⟨k, hk, hku⟩ := this
        rw [← uname_inj hku] at hk
        exact fetch_ref hk (idx_lt hk (by omega))
    rw [svsDiff, h1, Res.bind_eq, Res.bind_ok, refArr_succ _ rfl]
    have := ih (u + 1) (by omega) fun k e' hk => by
      have := hes (k + 1) e' (by simpa using hk)
      rwa [show u + 1 + k = u + (k + 1) by omega]
    rw [show n * (dc.length - neq) + u + 1 = n * (dc.length - neq) + (u + 1) by omega, this, List.length_cons]
    congr 2
    omega

theorem tMid_getK {k : Nat} {e : TElem K} (hl : neq + neq ≤ dc.length) (h : (tMid neq dc)[k]? = some e) :
    k < dc.length - neq - neq ∧ dc[neq + k]? = some e := by
  rw [tMid, List.getElem?_take] at h
  split at h
  · rw [List.getElem?_drop] at h
    exact ⟨by assumption, h⟩
  · cases h

theorem tMid_length (hl : neq + neq ≤ dc.length) : (tMid neq dc).length = dc.length - neq - neq := by
  rw [tMid, List.length_take, List.length_drop]
  omega

theorem tOuts_length (hl : neq + neq ≤ dc.length) : (tOuts neq dc).length = neq := by
  rw [tOuts, List.length_drop]
  omega

theorem ordersDiff_ref (hP : PowSound K) (hdc : SSysOk L neq dc svf) (hfn : FnMid neq dc) (hsz : dc.length ≤ 2 ^ 32)
    (cnt : Nat) : ∀ n, n ≠ 0 →
    ordersDiff par time neq (dc.length - neq) dc cnt n (refArr par time neq dc state (n * (dc.length - neq))) =
      .ok (refArr par time neq dc state ((n + cnt) * (dc.length - neq))) := by
  induction cnt with
  | zero => intro n _; rfl
  | succ cnt ih =>
    intro n hn
    have hl := hdc.len
    have h1 := svsDiff_ref (par := par) (time := time) (state := state) hdc hsz hn (tOuts neq dc) 0
      (by rw [tOuts_length hl]; omega) fun k e hk => by rw [Nat.zero_add]; exact tOuts_get hk
    have h2 := elemsDiff_ref (par := par) (time := time) (state := state) (n := n) hP hdc hfn hsz (tMid neq dc) neq
      (le_refl _) (by rw [tMid_length hl]; omega) fun k e hk => (tMid_getK hl hk).2
    rw [Nat.add_zero, tOuts_length hl] at h1
    rw [tMid_length hl, show n * (dc.length - neq) + neq + (dc.length - neq - neq) = (n + 1) * (dc.length - neq) by
      rw [Nat.succ_mul]; omega] at h2
    rw [ordersDiff, h1, Res.bind_eq, Res.bind_ok, h2, Res.bind_eq, Res.bind_ok, ih (n + 1) (by omega)]
    congr 2
    rw [Nat.add_right_comm, Nat.add_assoc]

theorem state_ref (hl : neq + neq ≤ dc.length) (hs : state.length = neq) : ∀ k ≤ neq,
    refArr par time neq dc state k = (state.take k).map V.fin
  | 0, _ => rfl
  | k + 1, h => by
    have ih := state_ref hl hs k (by omega)
    have hk : state[k]? = some state[k] := List.getElem?_eq_getElem (by omega)
    rw [← refArr_succ (u := k) (o := 0) k (by omega), refG_state (by omega) (by omega) hk, ih, List.take_add_one, hk]
    simp only [List.map_append, Option.toList_some, List.map_cons, List.map_nil]

/-- The array computed by the default mode. -/
theorem jetArr_ref (hP : PowSound K) (hdc : SSysOk L neq dc svf) (hfn : FnMid neq dc) (hsz : dc.length ≤ 2 ^ 32)
    {order : Nat} (ho : order ≠ 0) (hs : state.length = neq) :
    jetArr par time neq dc svf order state = .ok (refArr par time neq dc state
      (order * (dc.length - neq) + neq + (lastElems neq dc svf).length)) := by
  have hl := hdc.len
  have h0 := state_ref (par := par) (time := time) hl hs neq (le_refl _)
  rw [← hs, List.take_length] at h0
  have h1 := elemsDiff_ref (par := par) (time := time) (state := state) (n := 0) hP hdc hfn hsz (tMid neq dc) neq
    (le_refl _) (by rw [tMid_length hl]; omega) fun k e hk => (tMid_getK hl hk).2
  have h2 := ordersDiff_ref (par := par) (time := time) (state := state) hP hdc hfn hsz (order - 1) 1 (by omega)
  have h3 := svsDiff_ref (par := par) (time := time) (state := state) hdc hsz ho (tOuts neq dc) 0
      (by rw [tOuts_length hl]; omega) fun k e hk => by rw [Nat.zero_add]; exact tOuts_get hk
  have h4 := elemsDiff_ref (par := par) (time := time) (state := state) (n := order) hP hdc hfn hsz
    (lastElems neq dc svf) neq (le_refl _) (by rw [lastElems, List.length_take, tMid_length hl]; omega)
    fun k e hk => by
      rw [lastElems, List.getElem?_take] at hk
      split at hk
      · exact (tMid_getK hl hk).2
      · cases hk
  rw [tMid_length hl, show 0 * (dc.length - neq) + neq + (dc.length - neq - neq) = 1 * (dc.length - neq) by omega,
    Nat.zero_mul, Nat.zero_add] at h1
  rw [Nat.add_zero, tOuts_length hl] at h3
  rw [show 1 + (order - 1) = order by omega] at h2
  rw [hs] at h0
  simp only [jetArr, ← h0, h1, h2, h3, h4, Res.bind_eq, Res.bind_ok]

theorem fetchAll_ref {rd : Nat → Nat → Res (V K)} {g : Nat → Nat → V K} {o : Nat} : ∀ {us : List Nat},
    (∀ u ∈ us, rd u o = .ok (g u o)) → fetchAll rd o us = .ok (us.map fun u => g u o)
  | [], _ => rfl
  | u :: us, h => by
    simp [fetchAll, h u List.mem_cons_self, fetchAll_ref fun x hx => h x (List.mem_cons_of_mem _ hx), Res.bind_eq,
      Res.pure_eq]

theorem extract_ref {rd : Nat → Nat → Res (V K)} {g : Nat → Nat → V K} {us : List Nat} : ∀ {os : List Nat},
    (∀ o ∈ os, ∀ u ∈ us, rd u o = .ok (g u o)) → extract rd us os = .ok (os.map fun o => us.map fun u => g u o)
  | [], _ => rfl
  | o :: os, h => by
    simp [extract, fetchAll_ref (h o List.mem_cons_self), extract_ref fun x hx => h x (List.mem_cons_of_mem _ hx),
      Res.bind_eq, Res.pure_eq]

theorem le_foldr_maxK {l : List Nat} {u : Nat} (h : u ∈ l) : u ≤ l.foldr max 0 := by
  induction l with
  | nil => cases h
  | cons a l ih =>
    simp only [List.foldr_cons]
    rcases List.mem_cons.1 h with rfl | h
    · exact le_max_left _ _
    · exact (ih h).trans (le_max_right _ _)

/-- The jet computed by the default mode: it succeeds on every well-formed decomposition. -/
theorem jet_ref (hP : PowSound K) (hdc : SSysOk L neq dc svf) (hfn : FnMid neq dc) (hsz : dc.length ≤ 2 ^ 32)
    {order : Nat} (hneq : neq ≠ 0) (ho : order ≠ 0) (hs : state.length = neq) :
    jet par time neq dc svf order state = .ok ((List.range (order + 1)).map fun o =>
      (List.range neq ++ svf).map fun u => refG par time neq dc state u o) := by
  have hl := hdc.len
  rw [jet, if_neg (by omega), jetArr_ref hP hdc hfn hsz ho hs, Res.bind_eq, Res.bind_ok]
  refine extract_ref fun o ho' u hu => ?_
  rw [List.mem_range] at ho'
  have hun : u < dc.length - neq := by
    rcases List.mem_append.1 hu with hu | hu
    · rw [List.mem_range] at hu; omega
    · exact hdc.svf u hu
  refine fetch_ref hun ?_
  rcases Nat.lt_succ_iff_lt_or_eq.1 ho' with h | h
  · have := idx_lt (u' := neq + (lastElems neq dc svf).length) hun h
    omega
  · subst h
    rcases List.mem_append.1 hu with hu | hu
    · rw [List.mem_range] at hu; omega
    · have := le_foldr_maxK hu
      rw [lastElems, List.length_take, tMid_length hl]
      omega

end

end Heyoka.Taylor

import Verif.VarSys.Sol

/-!
# C50: the variational equations

The notions used: `dpart α F y` is the partial derivative of the function `F` of a list of reals at `y`, of the order `n` with
respect to the argument `i` for every pair `(i, n)` in `α`; `joint X` is the function of the list `t :: y` with the
value `X t y`; `SmoothFn` (infinitely often differentiable near a point) is in `Expr/DiffSpec.lean`, `Reg` (all the functions
in the expression are infinitely often differentiable at the point) in `Expr/Reg.lean`.
-/

set_option linter.unusedSectionVars false

open Filter Topology

namespace Heyoka.Sym

open Heyoka.AD Heyoka.Dtens

/-! ### Families of solutions -/

/-- The point of the solution `X` at the time of `w`, for the values `y` of the variational arguments: the parameters which
are variational arguments have the values in `y`, the other ones those in `w`. -/
structure FamAt (X : String → ℝ → List ℝ → ℝ) (vargs : List (Expr ℝ)) (w : Env ℝ) (y : List ℝ) (v : Env ℝ) : Prop where
  var : ∀ s, v.var s = X s w.time y
  par : ∀ (k i : Nat), vargs[k]? = some (.par i) → y[k]? = some (v.par i)
  other : ∀ i, .par i ∉ vargs → v.par i = w.par i
  time : v.time = w.time

/-- A family of solutions of the system: `X s τ y` is the value of the state variable `s` at the time `τ`, for the values `y` of the
variational arguments. -/
structure Family [DFunc] (sys : List (Expr ℝ × Expr ℝ)) (vargs : List (Expr ℝ)) (X : String → ℝ → List ℝ → ℝ) (w : Env ℝ)
    (y : List ℝ) : Prop where
  len : y.length = vargs.length
  smooth : ∀ s e, (.var s, e) ∈ sys → SmoothFn (joint (X s)) (w.time :: y)
  /-- For arguments near `y`, the functions satisfy the equations. -/
  solves : ∀ᶠ z in 𝓝 (vec y), ∀ v, FamAt X vargs w (List.ofFn z) v → ∀ s e, (.var s, e) ∈ sys →
    ∃ D, e.eval v = some D ∧ HasDerivAt (fun τ => X s τ (List.ofFn z)) D w.time
  regular : ∀ v, FamAt X vargs w y v → ∀ s e, (.var s, e) ∈ sys → Reg v e

/-- The point where the variables of the variational system have the values of the derivatives of the solution. -/
structure VarPoint (sys : List (Expr ℝ × Expr ℝ)) (vs : VSys ℝ) (X : String → ℝ → List ℝ → ℝ) (y : List ℝ) (w : Env ℝ) : Prop where
  var : ∀ (k : Nat) (key : SIdx) (e : Expr ℝ) (n : String) (e' : Expr ℝ) (s : String) (r : Expr ℝ),
    vs.dt.map[k]? = some (key, e) → vs.sys[k]? = some (.var n, e') → sys[key.1]? = some (.var s, r) →
    w.var n = dpart key.2 (X s w.time) y
  par : ∀ (k i : Nat), vs.vargs[k]? = some (.par i) → y[k]? = some (w.par i)

section
variable [DFunc] [FmtName ℝ] {fuel : Nat} {share : List (Expr ℝ) → List (Node ℝ)} {sys : List (Expr ℝ × Expr ℝ)} {va : VArgs ℝ}
variable {order : Nat} {vs : VSys ℝ} {H : ℝ → Prop}

theorem args_par {names : List String} {l : List (DVar × Expr ℝ)} (h : ∀ p ∈ l, VArgOk names p) (k i : Nat) :
    (l.map Prod.fst)[k]? = some (.par i) ↔ (l.map Prod.snd)[k]? = some (.par i) := by
  rw [List.getElem?_map, List.getElem?_map]
  cases hk : l[k]? with
  | none => simp
  | some p =>
    rcases h p (List.mem_of_getElem? hk) with ⟨s, -, rfl⟩ | ⟨j, rfl⟩ | rfl <;> simp

/-- C50: **the equations are those of the derivatives**: for every solution of the system which depends smoothly on the variational
arguments (initial values, parameters, initial time), the derivatives of the solution satisfy the variational
equations: the right-hand side of the equation for a derivative has a value, which is the derivative of this derivative with
respect to time. -/
theorem var_ode_sys_solution (hH : HexOk H) (hshare : ∀ es, Represents (share es) es) (ho : order < 2 ^ 32)
    (hp : ∀ p ∈ sys, PlainExpr H p.2) (ht : VTimeOk va) (h : varOdeSys fuel share sys va order = some (.ok vs))
    {X : String → ℝ → List ℝ → ℝ} {w : Env ℝ} {y : List ℝ} (hX : Family sys vs.vargs X w y) (hw : VarPoint sys vs X y w)
    {k : Nat} {key : SIdx} {e r : Expr ℝ} {s : String} (hk : vs.dt.map[k]? = some (key, e)) (hs : sys[key.1]? = some (.var s, r)) :
    ∃ n e', vs.sys[k]? = some (.var n, e') ∧
      ∃ D, e'.eval w = some D ∧ HasDerivAt (fun τ => dpart key.2 (X s τ) y) D w.time := by
  rename_i D0 _
  obtain ⟨names, l, d, m, hb, rfl⟩ := varOdeSys_built h
  simp only at hk hX hw ⊢
  obtain ⟨ha1, ha2, -⟩ := vargsOf_ok hb.ok.distinct hb.ok.notReserved ht hb.args
  obtain ⟨hXlen, hXsm, hXsol, hXreg⟩ := hX
  set A := l.map Prod.fst with hA
  let DX : DFunc := ⟨some fun id y => X id w.time y⟩
  have hc := hb.complete hH hshare ho hp
  have htens := @VBuilt.tens _ _ _ _ _ _ _ _ _ _ _ hb DX hH hshare ho hp
  have hlen : y.length = A.length := by rw [hXlen, hA, List.length_map, List.length_map]
  have hname := hb.get' hs
  obtain ⟨s', hs', heq⟩ := hb.eqn hk
  simp only at hs' heq
  rw [hname] at hs'
  cases hs'
  refine ⟨_, _, heq, ?_⟩
  -- the points near `y`
  let u : Env ℝ := envAt w A y
  have hupar : u.par = w.par := by
    funext i
    by_cases hi : DVar.par i ∈ A
    · obtain ⟨j, hj⟩ := List.getElem?_of_mem hi
      have := hw.par j i ((args_par ha1 j i).1 hj)
      exact envAt_get w A y j _ _ ha2 hj this
    · exact envAt_out w A y _ hi
  have hutime : u.time = w.time := envAt_time w A y
  have hget : ∀ ys : List ℝ, ys.length = A.length → A.map (envAt u A ys).get = ys := by
    intro ys hys
    refine List.ext_getElem? fun j => ?_
    rw [List.getElem?_map]
    cases hj : A[j]? with
    | none =>
      rw [List.getElem?_eq_none_iff] at hj
      rw [Option.map_none, eq_comm, List.getElem?_eq_none_iff, hys]
      exact hj
    | some a =>
      have hjl := (List.getElem?_eq_some_iff.1 hj).1
      have hy : ys[j]? = some ys[j] := List.getElem?_eq_getElem (by omega)
      rw [Option.map_some, envAt_get u A ys j a _ ha2 hj hy, hy]
  have huget : A.map u.get = y := by
    have := hget y hlen
    have h2 : envAt u A y = u := by
      have h3 : A.map u.get = y := by
        refine List.ext_getElem? fun j => ?_
        rw [List.getElem?_map]
        cases hj : A[j]? with
        | none =>
          rw [List.getElem?_eq_none_iff] at hj
          rw [Option.map_none, eq_comm, List.getElem?_eq_none_iff, hlen]
          exact hj
        | some a =>
          have hjl := (List.getElem?_eq_some_iff.1 hj).1
          have hy : y[j]? = some y[j] := List.getElem?_eq_getElem (by omega)
          rw [Option.map_some, envAt_get w A y j a _ ha2 hj hy, hy]
      conv_lhs => rw [← h3]
      exact envAt_self u A ha2
    rw [h2] at this
    exact this
  have hevalA : ∀ v : Env ℝ, @Expr.evalL ℝ _ (@realInterp DX) v (A.map ofDVar) = some (A.map v.get) := by
    intro v
    clear * -
    induction A with
    | nil => simp
    | cons a A ih =>
      rw [List.map_cons, List.map_cons, @Expr.evalL_cons ℝ _ _ (@realInterp DX), ih]
      cases a <;> simp [ofDVar, Env.get]
  have hdfun : ∀ (v : Env ℝ) (t : String) (α : List (Nat × Nat)), @Expr.eval ℝ _ (@realInterp DX) v (.fn (.dfun t α) (A.map ofDVar)) =
      some (dpart α (X t w.time) (A.map v.get)) := by
    intro v t α
    rw [@Expr.eval_fn ℝ _ _ (@realInterp DX) _ _ _ (.inl (by simp)), hevalA]
    rfl
  let famEnv : List ℝ → Env ℝ := fun ys => ⟨fun s => X s w.time ys, (envAt u A ys).par, w.time⟩
  have hfam : ∀ ys : List ℝ, ys.length = A.length → FamAt X (l.map Prod.snd) w ys (famEnv ys) := by
    intro ys hys
    refine ⟨fun _ => rfl, fun j i hj => ?_, fun i hi => ?_, rfl⟩
    · have hj' := (args_par ha1 j i).2 hj
      have hjl := (List.getElem?_eq_some_iff.1 hj').1
      have hy : ys[j]? = some ys[j] := List.getElem?_eq_getElem (by rw [hys]; exact hjl)
      have := envAt_get u A ys j (.par i) _ ha2 hj' hy
      rw [hy]
      exact congrArg some this.symm
    · have hi' : DVar.par i ∉ A := by
        intro hc
        obtain ⟨j, hj⟩ := List.getElem?_of_mem hc
        exact hi (List.mem_of_getElem? ((args_par ha1 j i).1 hj))
      have := envAt_out u A ys _ hi'
      exact this.trans (congrFun hupar i)
  have hmem : (Expr.var s, r) ∈ sys := List.mem_of_getElem? hs
  have hgood := rhs_good hb.ok hp hmem
  let r' : Expr ℝ := r.mapNodes (subsLeaf (svSubs names (A.map ofDVar))) id
  have hr' : (subRhs sys names l)[key.1]? = some r' := by
    rw [subRhs, List.getElem?_map, List.getElem?_map, hs]
    rfl
  have hevalr : ∀ ys : List ℝ, ys.length = A.length → @Expr.eval ℝ _ (@realInterp DX) (envAt u A ys) r' =
      @Expr.eval ℝ _ (@realInterp D0) (famEnv ys) r := by
    intro ys hys
    have h1 : @Expr.eval ℝ _ (@realInterp DX) (envAt u A ys) r' = @Expr.eval ℝ _ (@realInterp DX) (famEnv ys) r := by
      refine @eval_mapNodes_subs ℝ _ _ (@realInterp DX) _ (envAt u A ys) (famEnv ys) r (fun t hto => ?_) rfl ?_
      · have ht : t ∈ names := goodS_sub_var hto hgood
        unfold substValue
        rw [svSubs, if_pos (by simpa using ht)]
        simp only
        rw [hdfun, hget ys hys]
        rfl
      · show (envAt u A ys).time = w.time
        rw [envAt_time, hutime]
    rw [h1]
    exact eval_indep DX D0 (fun _ _ => rfl) (fun _ _ => rfl) rfl (PlainExpr.nodfun (hp _ hmem))
  -- the value of the derivative
  have hsub : @SubsReg DX (svSubs names (A.map ofDVar)) (· ∈ names) u (famEnv y) := by
    have hself : envAt u A y = u := by
      conv_lhs => rw [← huget]
      exact envAt_self u A ha2
    refine @SubsReg.mk DX _ _ _ _ (fun t q hq => ?_) (fun t ht hn => ?_) ?_ hutime
    · unfold svSubs at hq
      split_ifs at hq with hcon
      cases hq
      have htn : t ∈ names := by simpa using hcon
      obtain ⟨i, hi⟩ := List.getElem?_of_mem htn
      obtain ⟨e2, he2⟩ := hb.get hi
      have hsm := (hXsm t e2 (List.mem_of_getElem? he2)).slice
      refine ⟨?_, ?_, rfl, id⟩
      · refine (@reg_fn DX _ _ _).2 ⟨fun a ha => ?_, A.map u.get, hevalA u, ?_⟩
        · obtain ⟨x, -, rfl⟩ := List.mem_map.1 ha
          cases x <;> trivial
        · refine ⟨⟨by simp, by simp⟩, _, rfl, ?_⟩
          have hzip : ∀ (g : Expr ℝ → ℝ → ArgVal) (hg : ∀ a y, (g a y).val = y) (as : List (Expr ℝ)) (xs : List ℝ),
              as.length = xs.length → (List.zipWith g as xs).map (·.val) = xs := by
            intro g hg as
            induction as with
            | nil => intro xs hl; cases xs <;> simp at hl ⊢
            | cons a as ih =>
              intro xs hl
              cases xs with
              | nil => simp at hl
              | cons x xs => simp only [List.zipWith_cons_cons, List.map_cons, hg, ih xs (by simpa using hl)]
          rw [hzip _ (fun _ _ => rfl) _ _ (by simp), huget]
          exact hsm
      · rw [hdfun, huget]
        rfl
    · unfold svSubs at hn
      rw [if_pos (by simpa using ht)] at hn
      cases hn
    · show u.par = (envAt u A y).par
      rw [hself]
  have hregr : @Reg DX u r' := by
    refine @SubsReg.reg DX _ _ _ _ _ _ _ hsub hgood ?_
    exact (reg_indep D0 DX (hp _ hmem)).1 (hXreg _ (hfam y hlen) s r hmem)
  have hval := @Tensor.value A DX _ _ _ _ _ htens ha2 (key, e) (List.mem_of_getElem? hk) r' hr' u hregr
  rw [huget] at hval
  simp only at hval
  have hnear : onVec y.length (fun ys => @Expr.val DX r' (envAt u A ys)) =ᶠ[𝓝 (vec y)]
      onVec y.length (fun ys => deriv (fun τ => X s τ ys) w.time) := by
    filter_upwards [hXsol] with z hz
    obtain ⟨D, h1, h2⟩ := hz _ (hfam (List.ofFn z) (by simp [hlen])) s r hmem
    show (@Expr.eval ℝ _ (@realInterp DX) (envAt u A (List.ofFn z)) r').getD 0 = deriv (fun τ => X s τ (List.ofFn z)) w.time
    rw [hevalr _ (by simp [hlen]), h1, Option.getD_some, h2.deriv]
  have hdp := (dpart_congr_near hnear key.2).self_of_nhds
  simp only [onVec, ofFn_vec] at hdp
  rw [hdp] at hval
  refine ⟨_, ?_, dpart_time (hXsm s r hmem) key.2⟩
  rw [← hval]
  -- the replacement of the `dfun` objects
  have hcl := htens.syn _ _ _ _ (svFn_ok H names A) (subRhs_cl hb.ok hp) (key, e) (List.mem_of_getElem? hk)
  refine hb.svMap.replace_eval DX D0 hupar.symm hutime.symm ?_ hcl
  rintro f ⟨t, ht, α, rfl, h1, h2, h3⟩
  have hdeg := ((hc.keys key).1 ⟨_, List.mem_of_getElem? hk, rfl⟩).2.2.2
  obtain ⟨h4, k', i', e', h5, h6⟩ := hb.find hc ht h1 h2 (le_trans h3 hdeg)
  refine ⟨_, h4, ?_⟩
  rw [hdfun, huget]
  obtain ⟨s2, h7, h8⟩ := hb.eqn h5
  simp only at h7 h8
  rw [h6] at h7
  cases h7
  obtain ⟨r2, h9⟩ := hb.get h6
  rw [hw.var k' (i', α) e' _ _ t r2 h5 h8 h9]


/-- C50: **the equations**: the first ones are those of the system, without any change; there is one equation for every derivative
of a state variable up to the given order, sorted as in the tensor (`VSysOk`: the hypothesis of the theorems of C43 about the initial
conditions); the arguments are those requested. -/
theorem var_ode_sys_shape (hH : HexOk H) (hshare : ∀ es, Represents (share es) es) (ho : order < 2 ^ 32)
    (hp : ∀ p ∈ sys, PlainExpr H p.2) (ht : VTimeOk va) (h : varOdeSys fuel share sys va order = some (.ok vs)) :
    ∃ names, OdeSysOk sys [] names ∧ VSysOk vs names order ∧ vs.sys.take sys.length = sys ∧
      vs.vargs = wantedArgs names (sys.map Prod.snd) va := by
  obtain ⟨names, l, d, m, hb, rfl⟩ := varOdeSys_built h
  obtain ⟨ha1, ha2, ha3⟩ := vargsOf_ok hb.ok.distinct hb.ok.notReserved ht hb.args
  have hc := hb.complete hH hshare ho hp
  have htens := hb.tens hH hshare ho hp
  have hlhs := lhsMap_ok hb.lhs
  -- the first equations
  have hfirst : ∀ (i : Nat) (q : Expr ℝ × Expr ℝ), sys[i]? = some q →
      ((m.map Prod.snd).zip ((d.map.map Prod.snd).map fun e => e.replace (mapFind m)))[i]? = some q := by
    intro i q hq
    have hi : i < names.length := by rw [hb.len]; exact (List.getElem?_eq_some_iff.1 hq).1
    obtain ⟨r, hr⟩ := hb.get (List.getElem?_eq_getElem hi)
    rw [hq] at hr
    cases hr
    obtain ⟨e, he⟩ := complete_zero hc hi
    obtain ⟨s, hs, heq⟩ := hb.eqn he
    simp only at hs heq
    rw [List.getElem?_eq_getElem hi] at hs
    cases hs
    have hbase := htens.base i _ (show (subRhs sys names l)[i]? = some _ by
      rw [subRhs, List.getElem?_map, List.getElem?_map, hq]; rfl)
    have h1 := hc.lookup hbase
    have h2 := hc.lookup (List.mem_of_getElem? he)
    simp only at h1 h2
    rw [h1] at h2
    cases h2
    rw [heq, hb.replace_subs hc (rhs_good hb.ok hp (List.mem_of_getElem? hq))]
    rfl
  refine ⟨names, hb.ok, ⟨hc, Nat.pos_of_ne_zero hb.pos, ?_, fun i s hs => ?_, hb.ok.distinct, ?_, ?_, ?_⟩, ?_, ha3⟩
  · simp [hlhs.1]
  · obtain ⟨e, he⟩ := hb.get hs
    exact ⟨e, hfirst i _ he⟩
  · simp [hb.nargs]
  · exact args_snd_nodup ha1 ha2
  · intro a ha
    obtain ⟨p, hpm, rfl⟩ := List.mem_map.1 ha
    rcases ha1 p hpm with ⟨s, hs, rfl⟩ | ⟨i, rfl⟩ | rfl
    · exact .inl ⟨s, hs, rfl⟩
    · exact .inr (.inl ⟨i, rfl⟩)
    · exact .inr (.inr rfl)
  · refine List.ext_getElem? fun i => ?_
    rw [List.getElem?_take]
    split_ifs with hi
    · rw [List.getElem?_eq_getElem hi]
      exact hfirst i _ (List.getElem?_eq_getElem hi)
    · rw [eq_comm, List.getElem?_eq_none_iff]
      omega

/-- C50: **the result is a system**: the variational equations form a well-formed system of differential equations, which the integrators
accept (C42): the variables are different, not reserved, and no other variables occur in the equations. -/
theorem var_ode_sys_valid (hH : HexOk H) (hshare : ∀ es, Represents (share es) es) (ho : order < 2 ^ 32)
    (hp : ∀ p ∈ sys, PlainExpr H p.2) (h : varOdeSys fuel share sys va order = some (.ok vs)) :
    validateOdeSys vs.sys [] [] = .ok () := by
  obtain ⟨names, l, d, m, hb, rfl⟩ := varOdeSys_built h
  have hc := hb.complete hH hshare ho hp
  have htens := hb.tens hH hshare ho hp
  obtain ⟨hl1, hl2⟩ := lhsMap_ok hb.lhs
  let name : SIdx × Expr ℝ → String := fun q => lhsName (names.getD q.1.1 "") q.1.2
  have hname : ∀ q : SIdx × Expr ℝ, ∀ s, names[q.1.1]? = some s → name q = lhsName s q.1.2 := by
    intro q s hs
    show lhsName (names.getD q.1.1 "") q.1.2 = _
    rw [List.getD, hs, Option.getD_some]
  have hin : ∀ q ∈ d.map, ∃ s ∈ names, names[q.1.1]? = some s := by
    intro q hq
    have := ((hc.keys q.1).1 ⟨q, hq, rfl⟩).1
    exact ⟨_, List.getElem_mem this, List.getElem?_eq_getElem this⟩
  have hfst : ((m.map Prod.snd).zip ((d.map.map Prod.snd).map fun e => e.replace (mapFind m))).map Prod.fst =
      (d.map.map name).map .var := by
    refine List.ext_getElem? fun k => ?_
    rw [List.getElem?_map, List.getElem?_map, List.getElem?_map]
    cases hk : d.map[k]? with
    | none =>
      rw [List.getElem?_eq_none_iff] at hk
      have : ((m.map Prod.snd).zip ((d.map.map Prod.snd).map fun e => e.replace (mapFind m)))[k]? = none := by
        rw [List.getElem?_eq_none_iff]
        simp [hl1, hk]
      rw [this]
      rfl
    | some q =>
      obtain ⟨s, hs, heq⟩ := hb.eqn hk
      rw [heq, Option.map_some, Option.map_some, Option.map_some, hname q s hs]
  refine (validate_ode_sys_iff _ [] []).2 ⟨d.map.map name, ?_, hfst, ?_, ?_, ?_, by simp⟩
  · intro hnil
    have h0 := complete_zero hc hc.nouts_pos
    obtain ⟨e, he⟩ := h0
    obtain ⟨s, -, heq⟩ := hb.eqn he
    simp only at hnil
    rw [hnil] at heq
    cases heq
  · rw [List.nodup_iff_pairwise_ne, List.pairwise_map]
    refine hc.sorted.imp_of_mem fun {p q} hp hq hlt heq => ?_
    obtain ⟨s, hs, hs'⟩ := hin p hp
    obtain ⟨t, ht, ht'⟩ := hin q hq
    rw [hname p s hs', hname q t ht'] at heq
    obtain ⟨h1, h2⟩ := lhsName_inj (hb.nopart s hs) (hb.nopart t ht) heq
    subst h1
    have h3 : p.1.1 = q.1.1 := by
      have h4 := (List.getElem?_eq_some_iff.1 hs')
      have h5 := (List.getElem?_eq_some_iff.1 ht')
      obtain ⟨h6, h7⟩ := h4
      obtain ⟨h8, h9⟩ := h5
      exact (hb.ok.distinct.getElem_inj_iff).1 (h7.trans h9.symm)
    have h4 : p.1 = q.1 := Prod.ext h3 h2
    rw [h4] at hlt
    exact Less.irrefl _ hlt
  · intro n hn r
    obtain ⟨q, hq, rfl⟩ := List.mem_map.1 hn
    obtain ⟨s, hs, hs'⟩ := hin q hq
    rw [hname q s hs']
    exact lhsName_notReserved (hb.ok.notReserved s hs) r
  · intro p hpm s hs
    obtain ⟨k, hk⟩ := List.getElem?_of_mem hpm
    have hkl : k < d.map.length := by
      have := (List.getElem?_eq_some_iff.1 hk).1
      simp [hl1] at this
      exact this
    obtain ⟨t, -, heq⟩ := hb.eqn (List.getElem?_eq_getElem hkl)
    simp only at hk
    rw [hk] at heq
    cases heq
    have hcl := htens.syn _ _ _ _ (svFn_ok H names (l.map Prod.fst)) (subRhs_cl hb.ok hp) _ (List.getElem_mem hkl)
    refine goodS_leaves (hb.svMap.replace_good (Q := (· ∈ d.map.map name)) ?_ hcl) s hs
    rintro f ⟨t, ht, α, rfl, h1, h2, h3⟩
    have hdeg := ((hc.keys d.map[k].1).1 ⟨_, List.getElem_mem hkl, rfl⟩).2.2.2
    obtain ⟨h4, k', i', e', h5, h6⟩ := hb.find hc ht h1 h2 (le_trans h3 hdeg)
    refine ⟨_, ?_, h4⟩
    rw [← hname ((i', α), e') t h6]
    exact List.mem_map_of_mem (List.mem_of_getElem? h5)

/-! ### Rejected calls -/

theorem validateOdeSys_ne_ub (sys : List (Expr ℝ × Expr ℝ)) : validateOdeSys sys [] [] = .ok () ∨ validateOdeSys sys [] [] = .throw := by
  have hl : ∀ (es : List (Expr ℝ)) (seen : List String), lhsLoop seen es ≠ .ub := by
    intro es
    induction es with
    | nil => intro seen h; cases h
    | cons e es ih =>
      intro seen h
      cases e with
      | var s => rw [lhsLoop] at h; split_ifs at h; exact ih _ h
      | num n => cases h
      | par n => cases h
      | fn f as => cases h
  have hv : ∀ seen (es : List (Expr ℝ)), checkVars seen es = .ok () ∨ checkVars seen es = .throw := by
    intro seen es
    unfold checkVars
    split_ifs
    · exact .inl rfl
    · exact .inr rfl
  unfold validateOdeSys
  split_ifs
  · exact .inr rfl
  · cases h : lhsLoop [] (sys.map Prod.fst) with
    | ub => exact absurd h (hl _ _)
    | throw => exact .inr rfl
    | ok seen =>
      rw [Res.bind_ok]
      rcases hv seen (sys.map Prod.snd) with h2 | h2 <;> rw [h2]
      · rw [Res.bind_ok]
        exact hv _ _
      · exact .inr rfl

theorem varOdeSys_throw (h : ∀ names, OdeSysOk sys [] names → varOdeSysImpl fuel share names (sys.map Prod.snd) va order = some .throw) :
    varOdeSys fuel share sys va order = some .throw := by
  rcases validateOdeSys_ne_ub sys with hv | hv
  · obtain ⟨names, hn⟩ := (validate_ode_sys_iff sys [] []).1 hv
    rw [varOdeSys_eq names hn, h names hn]
  · unfold varOdeSys
    rw [hv]
    rfl

theorem impl_throw_of_args {names : List String} (h : vargsOf names (sys.map Prod.snd) va = .throw) :
    varOdeSysImpl fuel share names (sys.map Prod.snd) va order = some .throw := by
  unfold varOdeSysImpl
  rw [h]
  split_ifs <;> rfl

theorem listArgs_throw {names : List String} {as : List (Expr ℝ)} {a : Expr ℝ} (ha : a ∈ as) (h : listArg names a = .throw) :
    listArgs names as = .throw := by
  have hub : ∀ a : Expr ℝ, listArg names a ≠ .ub := by
    intro a
    unfold listArg
    split
    · split_ifs <;> simp
    · simp
    · split_ifs <;> simp
  induction as with
  | nil => cases ha
  | cons b bs ih =>
    rw [listArgs]
    rcases List.mem_cons.1 ha with rfl | ha
    · rw [h]; rfl
    · rw [ih ha]
      cases hbb : listArg names b with
      | ub => exact absurd hbb (hub b)
      | throw => rfl
      | ok x => rfl

/-- C50: **rejected calls**: the order zero, an invalid system, a state variable whose name begins with `∂`, an enumerator which is zero
or too large, the parameters alone if there are none, an empty list of arguments, a list with an element that is neither a state variable
nor a parameter nor the time, duplicate arguments. -/
theorem var_ode_sys_rejects :
    varOdeSys fuel share sys va 0 = some .throw ∧
    ((¬ ∃ names, OdeSysOk sys [] names) → varOdeSys fuel share sys va order = some .throw) ∧
    (∀ s e r, (.var s, e) ∈ sys → s.toList = '∂' :: r → varOdeSys fuel share sys va order = some .throw) ∧
    (∀ n, n = 0 ∨ 7 < n → varOdeSys fuel share sys (.enum n) order = some .throw) ∧
    ((∀ p ∈ sys, ∀ i, .par i ∉ p.2.leaves) → varOdeSys fuel share sys (.enum 2) order = some .throw) ∧
    varOdeSys fuel share sys (.list []) order = some .throw ∧
    (∀ as s, .var s ∈ as → (∀ e, (.var s, e) ∉ sys) → varOdeSys fuel share sys (.list as) order = some .throw) ∧
    (∀ as x, .num x ∈ as → varOdeSys fuel share sys (.list as) order = some .throw) ∧
    (∀ as f bs, .fn f bs ∈ as → (Expr.fn f bs).beq (.fn .time []) = false → varOdeSys fuel share sys (.list as) order = some .throw) ∧
    (∀ as, ¬ as.Nodup → VTimeOk (.list as) → varOdeSys fuel share sys (.list as) order = some .throw) := by
  refine ⟨varOdeSys_throw fun names hn => ?_, fun h => varOdeSys_throw fun names hn => absurd ⟨names, hn⟩ h,
    fun s e r hm hs => varOdeSys_throw fun names hn => ?_, fun n h => varOdeSys_throw fun names hn => impl_throw_of_args ?_,
    fun h => varOdeSys_throw fun names hn => ?_, varOdeSys_throw fun names hn => impl_throw_of_args rfl,
    fun as s hm hs => varOdeSys_throw fun names hn => impl_throw_of_args ?_,
    fun as x hm => varOdeSys_throw fun names hn => impl_throw_of_args ?_,
    fun as f bs hm hs => varOdeSys_throw fun names hn => impl_throw_of_args ?_,
    fun as hd ht => varOdeSys_throw fun names hn => impl_throw_of_args ?_⟩
  · unfold varOdeSysImpl
    rw [if_pos rfl]
  · unfold varOdeSysImpl
    have h1 : names.any startsPartial = true := by
      rw [List.any_eq_true]
      have : (Expr.var s : Expr ℝ) ∈ names.map .var := by
        rw [← hn.lhs]
        exact List.mem_map_of_mem hm
      obtain ⟨t, ht, he⟩ := List.mem_map.1 this
      cases he
      refine ⟨s, ht, ?_⟩
      unfold startsPartial
      rw [hs]
      rfl
    by_cases h0 : order = 0
    · rw [if_pos h0]
    · rw [if_neg h0, if_pos h1]
  · rw [vargsOf, if_pos h]
  · have h1 : inPars (sys.map Prod.snd) = [] := by
      rw [List.eq_nil_iff_forall_not_mem]
      intro i hi
      unfold inPars at hi
      rw [mem_sortedSet, List.mem_filterMap] at hi
      obtain ⟨x, hx, he⟩ := hi
      obtain ⟨e, he', hx⟩ := List.mem_flatMap.1 hx
      obtain ⟨p, hp, rfl⟩ := List.mem_map.1 he'
      cases x with
      | par j => cases he; exact h p hp i hx
      | num n => cases he
      | var n => cases he
      | fn f as => cases he
    have h2 : vargsOf names (sys.map Prod.snd) (.enum 2 : VArgs ℝ) = .ok [] := by
      rw [vargsOf, if_neg (by decide), enumArgs, h1]
      simp
    unfold varOdeSysImpl
    rw [h2]
    have h3 : ∀ es : List (Expr ℝ), diffTensors fuel share es (.list []) order = some .throw := by
      intro es
      exact (diff_tensors_rejects (dargs := .all)).2.2.1
    simp only [List.map_nil, h3]
    split_ifs <;> rfl
  · have : listArg names (Expr.var s : Expr ℝ) = .throw := by
      rw [listArg, if_neg]
      intro hc
      have hsn : s ∈ names := by simpa using hc
      have : (Expr.var s : Expr ℝ) ∈ sys.map Prod.fst := by rw [hn.lhs]; exact List.mem_map_of_mem hsn
      obtain ⟨p, hp, he⟩ := List.mem_map.1 this
      exact hs p.2 (by rw [← he]; exact hp)
    cases as with
    | nil => cases hm
    | cons b bs => rw [vargsOf, listArgs_throw hm this]; rfl
  · have : listArg names (Expr.num x : Expr ℝ) = .throw := by
      rw [listArg]
      · rw [if_neg (by simp [Expr.beq])]
      · simp
      · simp
    cases as with
    | nil => cases hm
    | cons b bs => rw [vargsOf, listArgs_throw hm this]; rfl
  · have : listArg names (Expr.fn f bs : Expr ℝ) = .throw := by
      rw [listArg]
      · rw [if_neg (by rw [hs]; simp)]
      · simp
      · simp
    cases as with
    | nil => cases hm
    | cons b bs => rw [vargsOf, listArgs_throw hm this]; rfl
  · cases as with
    | nil => exact absurd .nil hd
    | cons b bs =>
      rw [vargsOf]
      cases hl : listArgs names (b :: bs) with
      | throw => rfl
      | ub =>
        have : ∀ cs : List (Expr ℝ), listArgs names cs ≠ .ub := by
          intro cs
          induction cs with
          | nil => simp [listArgs]
          | cons c cs ih =>
            rw [listArgs]
            cases hc : listArg names c with
            | ub =>
              unfold listArg at hc
              split at hc
              · split_ifs at hc
              · cases hc
              · split_ifs at hc
            | throw => simp
            | ok x =>
              rw [Res.bind_ok]
              cases hcs : listArgs names cs with
              | ub => exact absurd hcs ih
              | throw => simp
              | ok r => simp
        exact absurd hl (this _)
      | ok r =>
        rw [Res.bind_ok, if_neg]
        intro hnd
        have := args_snd_nodup (listArgs_ok ht hl) hnd
        rw [listArgs_snd hl] at this
        exact hd this

/-! ### The calls that succeed -/

/-- Valid arguments: an enumerator selecting at least one argument, or a list of different state variables, parameters and the time. -/
def VArgsFor (names : List String) (rhs : List (Expr ℝ)) : VArgs ℝ → Prop
  | .enum n => 0 < n ∧ n ≤ 7 ∧ wantedArgs names rhs (.enum n) ≠ []
  | .list as => as ≠ [] ∧ as.Nodup ∧ ∀ a ∈ as, (∃ s ∈ names, a = .var s) ∨ (∃ i, a = .par i) ∨ a = .fn .time []

/-- The decompositions made by `diff_tensors()` have at most `2^32` elements. -/
def VarFits (share : List (Expr ℝ) → List (Node ℝ)) (sys : List (Expr ℝ × Expr ℝ)) (names : List String) (va : VArgs ℝ) (order : Nat) : Prop :=
  ∀ l, vargsOf names (sys.map Prod.snd) va = .ok l → ∀ k, k < order → ∀ fuel d',
    diffTensors fuel share (subRhs sys names l) (.list ((l.map Prod.fst).map ofDVar)) k = some (.ok (d', l.map Prod.fst)) → Fits share k d'.map

theorem listArgs_total {names : List String} {as : List (Expr ℝ)}
    (h : ∀ a ∈ as, (∃ s ∈ names, a = .var s) ∨ (∃ i, a = .par i) ∨ a = .fn .time []) :
    ∃ r, listArgs names as = .ok r ∧ ∀ p ∈ r, VArgOk names p := by
  induction as with
  | nil => exact ⟨[], rfl, by simp⟩
  | cons a as ih =>
    obtain ⟨r, hr, hr'⟩ := ih fun b hb => h b (List.mem_cons_of_mem _ hb)
    rw [listArgs, hr]
    rcases h a List.mem_cons_self with ⟨s, hs, rfl⟩ | ⟨i, rfl⟩ | rfl
    · rw [listArg, if_pos (by simpa using hs)]
      refine ⟨_, rfl, fun p hp => ?_⟩
      rcases List.mem_cons.1 hp with rfl | hp
      · exact .inl ⟨s, hs, rfl⟩
      · exact hr' p hp
    · refine ⟨_, rfl, fun p hp => ?_⟩
      rcases List.mem_cons.1 hp with rfl | hp
      · exact .inr (.inl ⟨i, rfl⟩)
      · exact hr' p hp
    · have : listArg names (.fn .time [] : Expr ℝ) = .ok (.var itName) := by
        rw [listArg]
        · rw [if_pos (Expr.beq_refl _)]
        · simp
        · simp
      rw [this]
      refine ⟨_, rfl, fun p hp => ?_⟩
      rcases List.mem_cons.1 hp with rfl | hp
      · exact .inr (.inr rfl)
      · exact hr' p hp

theorem vargsOf_total {names : List String} {rhs : List (Expr ℝ)} (hr : ∀ s ∈ names, ∀ r : List Char, s.toList ≠ '_' :: '_' :: r)
    (h : VArgsFor names rhs va) : ∃ l, vargsOf names rhs va = .ok l ∧ l ≠ [] := by
  cases va with
  | enum n =>
    obtain ⟨h1, h2, h3⟩ := h
    refine ⟨_, by rw [vargsOf, if_neg (by omega)], fun hc => h3 ?_⟩
    rw [← enumArgs_snd rhs n h2, hc]
    rfl
  | list as =>
    obtain ⟨h1, h2, h3⟩ := h
    cases as with
    | nil => exact absurd rfl h1
    | cons a as =>
      obtain ⟨r, hl, hok⟩ := listArgs_total h3
      have hsnd := listArgs_snd hl
      refine ⟨r, ?_, ?_⟩
      · rw [vargsOf, hl, Res.bind_ok, if_pos]
        rw [← hsnd] at h2
        clear hl hsnd
        induction r with
        | nil => exact .nil
        | cons p r ih =>
          rw [List.map_cons, List.nodup_cons] at h2 ⊢
          refine ⟨fun hm => h2.1 ?_, ih h2.2 fun q hq => hok q (List.mem_cons_of_mem _ hq)⟩
          obtain ⟨q, hq, he⟩ := List.mem_map.1 hm
          have h4 := hok q (List.mem_cons_of_mem _ hq)
          have h5 := hok p List.mem_cons_self
          have : q.2 = p.2 := by
            rcases h4 with ⟨s, hs, rfl⟩ | ⟨i, rfl⟩ | rfl <;> rcases h5 with ⟨t, ht, rfl⟩ | ⟨j, rfl⟩ | rfl <;> simp at he ⊢
            · exact icName_inj he
            · exact icName_ne_itName (hr s hs) he
            · exact he
            · exact icName_ne_itName (hr t ht) he.symm
          rw [← this]
          exact List.mem_map_of_mem hq
      · rintro rfl
        cases hsnd

/-- C50: **success**: a valid system, valid arguments and a positive order give a variational system, provided that the sizes do not exceed
the range of 32-bit integers. -/
theorem var_ode_sys_total {names : List String} (hH : HexOk H) (hshare : ∀ es, Represents (share es) es) (hpos : 0 < order) (ho : order < 2 ^ 32)
    (hp : ∀ p ∈ sys, PlainExpr H p.2) (hs : OdeSysOk sys [] names) (hpart : ∀ s ∈ names, ∀ r : List Char, s.toList ≠ '∂' :: r)
    (hva : VArgsFor names (sys.map Prod.snd) va) (ht : VTimeOk va) (hal : (wantedArgs names (sys.map Prod.snd) va).length < 2 ^ 32)
    (hsl : sys.length ≤ 2 ^ 32) (hfit : VarFits share sys names va order) :
    ∃ N vs, ∀ fuel, N ≤ fuel → varOdeSys fuel share sys va order = some (.ok vs) := by
  obtain ⟨l, hl, hne⟩ := vargsOf_total hs.notReserved hva
  obtain ⟨ha1, ha2, ha3⟩ := vargsOf_ok hs.distinct hs.notReserved ht hl
  have hsne : subRhs sys names l ≠ [] := by
    intro hc
    unfold subRhs at hc
    rw [List.map_eq_nil_iff, List.map_eq_nil_iff] at hc
    exact hs.nonempty hc
  have hll : l.length < 2 ^ 32 := by
    rw [← ha3, List.length_map] at hal
    exact hal
  obtain ⟨N, d, hd⟩ := diff_tensors_total (dargs := .list ((l.map Prod.fst).map ofDVar)) (args := l.map Prod.fst) hH hshare
    (subRhs_lib (names := names) (l := l) hp) ho hsne ⟨rfl, ha2, by simpa using hne⟩ (by simpa using hll)
    (by rw [subRhs, List.length_map, List.length_map]; exact hsl) (hfit l hl)
  have hc := (diff_tensors_complete hH hshare (subRhs_lib (names := names) (l := l) hp) ho (hd N le_rfl))
  obtain ⟨-, hnargs, hcomp, -⟩ := hc
  have hnl : names.length = sys.length := by
    have := congrArg List.length hs.lhs
    simpa using this.symm
  obtain ⟨m, hm⟩ := lhsMap_total (names := names) (args := (l.map Prod.fst).map ofDVar) (l := d.map) fun q hq => by
    have := (hcomp.keys q.1).1 ⟨q, hq, rfl⟩
    rw [subRhs, List.length_map, List.length_map, ← hnl] at this
    refine ⟨this.1, this.2.1, fun p hp => ?_⟩
    have := this.2.2.1 p hp
    rw [hnargs] at this
    rwa [List.length_map]
  refine ⟨N, ⟨(m.map Prod.snd).zip ((d.map.map Prod.snd).map fun e => (transformSargs ((l.map Prod.fst).map ofDVar) e).replace (mapFind m)),
    d, l.map Prod.snd⟩, fun fuel hf => ?_⟩
  rw [varOdeSys_eq names hs]
  unfold varOdeSysImpl
  have hany : ¬ names.any startsPartial = true := by
    rw [List.any_eq_true]
    rintro ⟨s, hsn, hst⟩
    unfold startsPartial at hst
    split at hst
    · rename_i r hr
      exact hpart s hsn r hr
    · cases hst
  rw [if_neg (by omega), if_neg hany, hl]
  simp only
  have hmap : (l.map fun p : DVar × Expr ℝ => (ofDVar p.1 : Expr ℝ)) = (l.map Prod.fst).map ofDVar := by
    rw [List.map_map]; rfl
  have hdf := hd fuel hf
  rw [subRhs] at hdf
  rw [hmap, hdf, Option.map_some, Res.bind_ok, hm, Res.bind_ok]

/-- C50: at the first order, the only limit is the size of the right-hand sides. -/
theorem var_ode_sys_first_order_total {names : List String} (hH : HexOk H) (hshare : ∀ es, Represents (share es) es)
    (hp : ∀ p ∈ sys, PlainExpr H p.2) (hs : OdeSysOk sys [] names) (hpart : ∀ s ∈ names, ∀ r : List Char, s.toList ≠ '∂' :: r)
    (hva : VArgsFor names (sys.map Prod.snd) va) (ht : VTimeOk va) (hal : (wantedArgs names (sys.map Prod.snd) va).length < 2 ^ 32)
    (hsize : ∀ l, vargsOf names (sys.map Prod.snd) va = .ok l → (inputs (subRhs sys names l)).length +
      Expr.fnCountL ((subRhs sys names l).map (prep (inputs (subRhs sys names l)))) + sys.length ≤ 2 ^ 32) :
    ∃ N vs, ∀ fuel, N ≤ fuel → varOdeSys fuel share sys va 1 = some (.ok vs) := by
  obtain ⟨l0, hl0, -⟩ := vargsOf_total hs.notReserved hva
  refine var_ode_sys_total hH hshare (by norm_num) (by norm_num) hp hs hpart hva ht hal
    (by have := hsize l0 hl0; omega) fun l hl k hk fuel d' hd' => ?_
  obtain rfl : k = 0 := by omega
  obtain ⟨-, -, -, -, -, h6⟩ := diffTensors_ok hd'
  rw [orderLoop] at h6
  simp only [Option.some.injEq, Res.ok.injEq] at h6
  intro fuel' dc hdc
  have he : (d'.map.filter fun p => degree p.1.2 == 0).map (·.2) = subRhs sys names l := by
    rw [← h6, List.filter_eq_self.2]
    · rw [List.map_map]
      exact List.zipIdx_map_fst 0 _
    · intro p hp
      obtain ⟨q, -, rfl⟩ := List.mem_map.1 hp
      rfl
  rw [he] at hdc
  have h1 := diffDecompose_size hshare hdc
  have h2 := hsize l hl
  have h3 : (subRhs sys names l).length = sys.length := by simp [subRhs]
  omega

end

/-! ### Examples -/

/-- The system `x' = par[0]·x`. -/
def exLinear (K : Type) : List (Expr K × Expr K) := [(.var "x", .fn (.prod false) [.par 0, .var "x"])]

/-- Its solutions, as functions of the initial value at the time 0 and the parameter. -/
noncomputable def exLinearSol : String → ℝ → List ℝ → ℝ := fun _ t y => y.getD 0 0 * Real.exp (y.getD 1 0 * t)

/-- They are a smooth family of solutions. -/
example [DFunc] [FmtName ℝ] (w : Env ℝ) (x p : ℝ) : Family (exLinear ℝ) [.var "x", .par 0] exLinearSol w [x, p] where
  len := rfl
  smooth := by
    intro s e _
    refine Eventually.of_forall fun z => ?_
    have : onVec [w.time, x, p].length (joint (exLinearSol s)) = fun z => z 1 * Real.exp (z 2 * z 0) := by
      funext z
      simp [onVec, joint, exLinearSol, List.ofFn_succ]
    rw [this]
    fun_prop
  solves := by
    refine Eventually.of_forall fun z v hv s e hse => ?_
    simp only [exLinear, List.mem_singleton, Prod.mk.injEq, Expr.var.injEq] at hse
    obtain ⟨rfl, rfl⟩ := hse
    have hpar := hv.par 1 0 rfl
    have hz : List.ofFn z = [z 0, z 1] := by simp [List.ofFn_succ]
    rw [hz] at hpar ⊢
    have hpar : z 1 = v.par 0 := by simpa using hpar
    refine ⟨v.par 0 * v.var "x", ?_, ?_⟩
    · simp [Expr.eval, Expr.evalL, app_def, realApp]
    · have hx := hv.var "x"
      rw [hz] at hx
      have h := (((hasDerivAt_id w.time).const_mul (z 1)).exp).const_mul (z 0)
      simp only [exLinearSol, List.getD_cons_zero, List.getD_cons_succ] at hx ⊢
      have he : v.par 0 * v.var "x" = z 0 * (Real.exp (z 1 * id w.time) * (z 1 * 1)) := by
        rw [hx, ← hpar]
        simp only [id_eq, mul_one]
        ring
      rw [he]
      exact h
  regular := by
    intro v _ s e hse
    simp only [exLinear, List.mem_singleton, Prod.mk.injEq] at hse
    obtain ⟨-, rfl⟩ := hse
    refine reg_prod ?_
    simp [Reg]

/-- The constructor succeeds on this system. -/
example [DFunc] [FmtName ℝ] : ∃ share : List (Expr ℝ) → List (Node ℝ), (∀ es, Represents (share es) es) ∧
    ∃ N vs, ∀ fuel, N ≤ fuel → varOdeSys fuel share (exLinear ℝ) (.list [.var "x", .par 0]) 1 = some (.ok vs) := by
  obtain ⟨share, hs⟩ := exists_share
  refine ⟨share, hs, var_ode_sys_first_order_total (H := fun _ => False) (names := ["x"])
    ⟨fun _ _ h => h.elim, fun _ h => h.elim⟩ hs ?_ ?_ ?_ ?_ ?_ ?_ ?_⟩
  · intro p hp
    simp only [exLinear, List.mem_singleton] at hp
    subst hp
    simp [GoodS, GoodSL, PlainFn, Fn.lib, Fn.builtin, hasGrad]
  · refine ⟨by simp [exLinear], rfl, by simp, by simp, ?_, by simp⟩
    intro p hp s hs
    simp only [exLinear, List.mem_singleton] at hp
    subst hp
    simpa [Expr.leaves, Expr.leavesL] using hs
  · intro s hs r
    rw [List.mem_singleton] at hs
    subst hs
    simp
  · refine ⟨by simp, by simp, ?_⟩
    simp
  · intro e he
    simp only [List.mem_cons, List.not_mem_nil, or_false] at he
    rcases he with rfl | rfl <;> simp [Expr.beq]
  · simp [wantedArgs]
  · intro l hl
    obtain rfl : l = [(.var (icName "x"), .var "x"), (.par 0, .par 0)] := by
      have : vargsOf ["x"] ((exLinear ℝ).map Prod.snd) (.list [.var "x", .par 0]) =
          .ok [(.var (icName "x"), .var "x"), (.par 0, .par 0)] := by
        simp [vargsOf, listArgs, listArg]
      rw [this] at hl
      exact (Res.ok.inj hl).symm
    have h1 : inputs (subRhs (exLinear ℝ) ["x"] [(.var (icName "x"), .var "x"), (.par 0, .par 0)]) = [.var (icName "x"), .par 0] := by
      with_unfolding_all rfl
    have h2 : Expr.fnCountL ((subRhs (exLinear ℝ) ["x"] [(.var (icName "x"), .var "x"), (.par 0, .par 0)]).map
        (prep [.var (icName "x"), .par 0])) = 2 := by with_unfolding_all rfl
    rw [h1, h2]
    simp [exLinear]

/-- No function is evaluated in the example below. -/
local instance varSysInterp : Interp ℚ := { fold := fun _ _ => none, app := fun _ _ => none }

/-- The equations of a variational system. -/
def eqsOf (r : Option (Res (VSys ℚ))) : Option (List (Expr ℚ × Expr ℚ)) :=
  match r with
  | some (.ok vs) => some vs.sys
  | _ => none

/-- The variational equations of the system above. -/
example : eqsOf (varOdeSys 100 (fun es => (freshL 0 es).1) (exLinear ℚ) (.list [.var "x", .par 0]) 1) = some
    [(.var "x", .fn (.prod false) [.par 0, .var "x"]),
      (.var "∂[(0, 1)]x", .fn (.prod false) [.par 0, .var "∂[(0, 1)]x"]),
      (.var "∂[(1, 1)]x", .fn .sum [.fn (.prod false) [.par 0, .var "∂[(1, 1)]x"], .var "x"])] := by
  decide +kernel

/-- C50, finding N: a `dfun` written by the user, with the name of a state variable and the variational arguments as arguments, is taken
for the state variable: the first equation is `x' = x` instead of the equation passed by the user. The theorems above
exclude this case (`PlainExpr`). -/
theorem var_ode_sys_captures_dfun :
    eqsOf (varOdeSys 100 (fun es => (freshL 0 es).1) [(.var "x", .fn (.dfun "x" []) [.par 0])] (.list [.par 0]) 1) = some
      [(.var "x", .var "x"), (.var "∂[(0, 1)]x", .var "∂[(0, 1)]x")] := by
  decide +kernel

end Heyoka.Sym

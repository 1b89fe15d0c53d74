import Verif.VarSys.Args

/-!
# The constructor of `var_ode_sys`, and solutions
-/

set_option linter.unusedSectionVars false

open Filter Topology

namespace Heyoka.Sym

open Heyoka.AD Heyoka.Dtens

theorem ofDVar_inj {K : Type} {x y : DVar} (h : (ofDVar x : Expr K) = ofDVar y) : x = y := by
  cases x <;> cases y <;> simp [ofDVar] at h ⊢ <;> exact h

theorem goodS_leaves {K : Type} {S : Fn K → Nat → Prop} {Q : String → Prop} {R : Nat → Prop} {e : Expr K} (h : GoodS S Q R e) :
    ∀ s, .var s ∈ e.leaves → Q s := by
  induction e using Expr.ind with
  | num n => intro s hs; simp [Expr.leaves] at hs
  | par n => intro s hs; simp [Expr.leaves] at hs
  | var t => intro s hs; simp [Expr.leaves] at hs; subst hs; exact h
  | fn f args ih =>
    intro s hs
    rw [Expr.leaves, mem_leavesL] at hs
    obtain ⟨a, ha, hs⟩ := hs
    exact ih a ha ((goodS_fn.1 h).2 a ha) s hs

section
variable [FmtName ℝ] {fuel : Nat} {share : List (Expr ℝ) → List (Node ℝ)} {sys : List (Expr ℝ × Expr ℝ)} {va : VArgs ℝ}
variable {order : Nat} {vs : VSys ℝ} {H : ℝ → Prop}

/-- The right-hand sides after the substitution. -/
noncomputable def subRhs (sys : List (Expr ℝ × Expr ℝ)) (names : List String) (l : List (DVar × Expr ℝ)) : List (Expr ℝ) :=
  (sys.map Prod.snd).map (Expr.mapNodes (subsLeaf (svSubs names ((l.map Prod.fst).map ofDVar))) id)

/-- A successful call of the constructor. -/
structure VBuilt (fuel : Nat) (share : List (Expr ℝ) → List (Node ℝ)) (sys : List (Expr ℝ × Expr ℝ)) (va : VArgs ℝ) (order : Nat)
    (names : List String) (l : List (DVar × Expr ℝ)) (d : Dt (Expr ℝ)) (m : List (Expr ℝ × Expr ℝ)) : Prop where
  ok : OdeSysOk sys [] names
  pos : order ≠ 0
  nopart : ∀ s ∈ names, startsPartial s = false
  args : vargsOf names (sys.map Prod.snd) va = .ok l
  tensor : diffTensors fuel share (subRhs sys names l) (.list ((l.map Prod.fst).map ofDVar)) order = some (.ok (d, l.map Prod.fst))
  lhs : lhsMap names ((l.map Prod.fst).map ofDVar) d.map = .ok m

theorem sysNames_of {names : List String} (h : OdeSysOk sys [] names) : sysNames sys = .ok names := sysNames_ok.2 h.lhs

theorem varOdeSys_eq (names : List String) (h : OdeSysOk sys [] names) :
    varOdeSys fuel share sys va order = varOdeSysImpl fuel share names (sys.map Prod.snd) va order := by
  unfold varOdeSys
  rw [(validate_ode_sys_iff sys [] []).2 ⟨names, h⟩, Res.bind_ok, sysNames_of h]

theorem varOdeSys_built (h : varOdeSys fuel share sys va order = some (.ok vs)) :
    ∃ names l d m, VBuilt fuel share sys va order names l d m ∧
      vs = ⟨(m.map Prod.snd).zip ((d.map.map Prod.snd).map fun e => e.replace (mapFind m)), d, l.map Prod.snd⟩ := by
  cases hv : validateOdeSys sys [] [] with
  | throw => unfold varOdeSys at h; rw [hv] at h; cases h
  | ub => unfold varOdeSys at h; rw [hv] at h; cases h
  | ok u =>
    obtain ⟨names, hn⟩ := (validate_ode_sys_iff sys [] []).1 hv
    rw [varOdeSys_eq names hn] at h
    unfold varOdeSysImpl at h
    by_cases h0 : order = 0
    · rw [if_pos h0] at h; cases h
    rw [if_neg h0] at h
    by_cases h1 : names.any startsPartial = true
    · rw [if_pos h1] at h; cases h
    rw [if_neg h1] at h
    cases ha : vargsOf names (sys.map Prod.snd) va with
    | throw => rw [ha] at h; cases h
    | ub => rw [ha] at h; cases h
    | ok l =>
      rw [ha] at h
      simp only at h
      have hmap : (l.map fun p : DVar × Expr ℝ => (ofDVar p.1 : Expr ℝ)) = (l.map Prod.fst).map ofDVar := by
        rw [List.map_map]; rfl
      rw [hmap] at h
      cases hd : diffTensors fuel share (subRhs sys names l) (.list ((l.map Prod.fst).map ofDVar)) order with
      | none => rw [subRhs] at hd; rw [hd] at h; cases h
      | some r =>
        have hd' := hd
        rw [subRhs] at hd
        rw [hd, Option.map_some, Option.some.injEq] at h
        cases r with
        | throw => cases h
        | ub => cases h
        | ok d =>
          rw [Res.bind_ok] at h
          cases hm : lhsMap names ((l.map Prod.fst).map ofDVar) d.1.map with
          | throw => rw [hm] at h; cases h
          | ub => rw [hm] at h; cases h
          | ok m =>
            rw [hm, Res.bind_ok, Res.ok.injEq] at h
            obtain ⟨d, args⟩ := d
            have hargs : args = l.map Prod.fst := by
              have := (diffTensors_ok hd').2.1.1
              rw [DArgs.exprs, Res.ok.injEq] at this
              exact (List.map_injective_iff.2 (fun _ _ h => ofDVar_inj h) this).symm
            subst hargs
            refine ⟨names, l, d, m, ⟨hn, h0, ?_, ha, hd', hm⟩, ?_⟩
            · intro s hs
              simpa using fun hc => h1 (List.any_eq_true.2 ⟨s, hs, hc⟩)
            · rw [← h]
              simp only [transformSargs_id]

variable {names : List String} {l : List (DVar × Expr ℝ)} {d : Dt (Expr ℝ)} {m : List (Expr ℝ × Expr ℝ)}

/-- The system without variables other than the state variables. -/
theorem rhs_good (hs : OdeSysOk sys [] names) (hp : ∀ p ∈ sys, PlainExpr H p.2) {p : Expr ℝ × Expr ℝ} (hm : p ∈ sys) :
    GoodS (PlainFn H) (· ∈ names) (fun _ => True) p.2 := by
  refine (hp p hm).mono (fun _ _ h => h) (fun s hl _ => hs.rhs p hm s ?_) fun _ _ h => h
  obtain ⟨x, hx, he⟩ := List.mem_filterMap.1 hl
  cases x with
  | var t => cases he; exact hx
  | num n => cases he
  | par n => cases he
  | fn f as => cases he

theorem subRhs_lib [DFunc] (hp : ∀ p ∈ sys, PlainExpr H p.2) : ∀ e ∈ subRhs sys names l, LibExpr H e := by
  intro e he
  obtain ⟨e', he', rfl⟩ := List.mem_map.1 he
  obtain ⟨p, hm, rfl⟩ := List.mem_map.1 he'
  refine subs_lib (fun a ha => ?_) (hp p hm).lib
  obtain ⟨x, -, rfl⟩ := List.mem_map.1 ha
  cases x <;> trivial

theorem subRhs_cl (hs : OdeSysOk sys [] names) (hp : ∀ p ∈ sys, PlainExpr H p.2) : ∀ e ∈ subRhs sys names l,
    Cl (PlainFn H) (fun _ => True) ((l.map Prod.fst).map ofDVar) (SvFn names (l.map Prod.fst).length 0) e := by
  intro e he
  obtain ⟨e', he', rfl⟩ := List.mem_map.1 he
  obtain ⟨p, hm, rfl⟩ := List.mem_map.1 he'
  exact subs_cl (rhs_good hs hp hm)

variable (hb : VBuilt fuel share sys va order names l d m)
include hb

theorem VBuilt.tens [DFunc] (hH : HexOk H) (hshare : ∀ es, Represents (share es) es) (ho : order < 2 ^ 32)
    (hp : ∀ p ∈ sys, PlainExpr H p.2) : Tensor (LibFn H) (subRhs sys names l) (l.map Prod.fst) order d.map :=
  diffTensors_tensor hH hshare (subRhs_lib hp) ho hb.tensor

theorem VBuilt.len : names.length = sys.length := by
  have := congrArg List.length hb.ok.lhs
  simpa using this.symm

theorem VBuilt.subLen : (subRhs sys names l).length = names.length := by
  rw [hb.len, subRhs, List.length_map, List.length_map]

theorem VBuilt.nargs : d.nargs = l.length := by
  have := (diffTensors_ok hb.tensor).2.2.1
  simpa using this

theorem VBuilt.complete (hH : HexOk H) (hshare : ∀ es, Represents (share es) es) (ho : order < 2 ^ 32)
    (hp : ∀ p ∈ sys, PlainExpr H p.2) : Complete d names.length order := by
  have := (hb.tens hH hshare ho hp).complete
  rw [hb.subLen, List.length_map, ← hb.nargs] at this
  exact this

theorem VBuilt.svMap : SvMap (l.map Prod.fst) m := svMap_of hb.lhs

theorem VBuilt.get {i : Nat} {s : String} (hi : names[i]? = some s) : ∃ e, sys[i]? = some (.var s, e) := by
  have := congrArg (fun l => l[i]?) hb.ok.lhs
  simp only [List.getElem?_map, hi, Option.map_some] at this
  cases hq : sys[i]? with
  | none => rw [hq] at this; cases this
  | some q =>
    rw [hq, Option.map_some, Option.some.injEq] at this
    exact ⟨q.2, by rw [← this]⟩

theorem VBuilt.get' {i : Nat} {s : String} {e : Expr ℝ} (hi : sys[i]? = some (.var s, e)) : names[i]? = some s := by
  have := congrArg (fun l => l[i]?) hb.ok.lhs
  simp only [List.getElem?_map, hi, Option.map_some] at this
  cases hq : names[i]? with
  | none => rw [hq] at this; cases this
  | some q =>
    rw [hq, Option.map_some, Option.some.injEq] at this
    cases this
    rfl

/-- The equation for a derivative. -/
theorem VBuilt.eqn {k : Nat} {q : SIdx × Expr ℝ} (hk : d.map[k]? = some q) : ∃ s, names[q.1.1]? = some s ∧
    ((m.map Prod.snd).zip ((d.map.map Prod.snd).map fun e => e.replace (mapFind m)))[k]? =
      some (.var (lhsName s q.1.2), q.2.replace (mapFind m)) := by
  obtain ⟨-, h2⟩ := lhsMap_ok hb.lhs
  obtain ⟨s, h3, h4⟩ := h2 k q hk
  refine ⟨s, h3, ?_⟩
  rw [List.getElem?_zip_eq_some]
  simp [h4, hk]

/-- The variable standing for a `dfun` object. -/
theorem VBuilt.find (hc : Complete d names.length order) {s : String} (hs : s ∈ names) {α : List (Nat × Nat)} (h1 : Dtens.Sane α)
    (h2 : ∀ p ∈ α, p.1 < (l.map Prod.fst).length) (h3 : degree α ≤ order) :
    mapFind m (.fn (.dfun s α) ((l.map Prod.fst).map ofDVar)) = some (.var (lhsName s α)) ∧
      ∃ (k i : Nat) (e : Expr ℝ), d.map[k]? = some ((i, α), e) ∧ names[i]? = some s := by
  obtain ⟨i, hi⟩ := List.getElem?_of_mem hs
  obtain ⟨q, hq, hk⟩ := (hc.keys (i, α)).2 ⟨(List.getElem?_eq_some_iff.1 hi).1, h1, fun p hp => by
    have := h2 p hp
    rw [List.length_map] at this
    rw [hb.nargs]; exact this, h3⟩
  obtain ⟨k, hk'⟩ := List.getElem?_of_mem hq
  obtain ⟨-, h5⟩ := lhsMap_ok hb.lhs
  obtain ⟨t, h6, h7⟩ := h5 k q hk'
  rw [hk, hi] at h6
  cases h6
  rw [hk] at h7
  refine ⟨hb.svMap.find_sv (List.mem_of_getElem? h7), k, i, q.2, ?_, hi⟩
  rw [hk', ← hk]

theorem VBuilt.replace_subs (hc : Complete d names.length order) {e : Expr ℝ} (he : GoodS (PlainFn H) (· ∈ names) (fun _ => True) e) :
    (e.mapNodes (subsLeaf (svSubs names ((l.map Prod.fst).map ofDVar))) id).replace (mapFind m) = e := by
  induction e using Expr.ind with
  | num n =>
    show (Expr.num n).replace (mapFind m) = _
    rw [Expr.replace, hb.svMap.find_leaf rfl, Option.getD_none]
  | par n =>
    show (Expr.par n).replace (mapFind m) = _
    rw [Expr.replace, hb.svMap.find_leaf rfl, Option.getD_none]
  | var s =>
    have hs : s ∈ names := he
    rw [Expr.mapNodes, subsLeaf, svSubs, if_pos (by simpa using hs), Option.getD_some, Expr.replace,
      (hb.find hc hs (α := []) ⟨.nil, by simp⟩ (by simp) (by simp [degree])).1, Option.getD_some]
    rfl
  | fn f as ih =>
    rw [goodS_fn] at he
    rw [Expr.mapNodes, Expr.mapNodesL_eq_map, id, replace_fn (hb.svMap.find_plain he.1.1 _), List.map_map]
    congr 1
    conv_rhs => rw [← List.map_id as]
    exact List.map_congr_left fun a ha => ih a ha (he.2 a ha)

end

end Heyoka.Sym

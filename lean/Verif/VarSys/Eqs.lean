import Verif.VarSys.Subs

/-!
# The right-hand sides of the variational equations
-/

set_option linter.unusedSectionVars false

namespace Heyoka.Sym

open Heyoka.AD Heyoka.Dtens

/-! ### The `dfun` objects -/

theorem bump_eq_add {i : Nat} {α : List (Nat × Nat)} (h : Dtens.Sane α) : bumpIdx i false α = addIdx i α := by
  induction α with
  | nil => simp [bumpIdx, addIdx]
  | cons p r ih =>
    obtain ⟨j, o⟩ := p
    obtain ⟨h1, h2⟩ := h
    rw [List.pairwise_cons] at h1
    rw [bumpIdx, addIdx]
    by_cases hlt : j < i
    · rw [if_pos hlt, if_pos hlt, ih ⟨h1.2, fun q hq => h2 q (List.mem_cons_of_mem _ hq)⟩]
    · rw [if_neg hlt, if_neg hlt]
      by_cases heq : j = i
      · subst heq
        rw [if_pos rfl, if_pos rfl, bumpIdx_true h1.1]
      · rw [if_neg heq, if_neg heq, bumpIdx_true fun q hq => lt_trans (by omega) (h1.1 q hq)]
        simp

/-- The `dfun` objects standing for the derivatives of the state variables up to the order `d` with respect to
`n` arguments. -/
def SvFn (names : List String) (n d : Nat) (f : Fn ℝ) : Prop :=
  ∃ s ∈ names, ∃ α, f = .dfun s α ∧ Dtens.Sane α ∧ (∀ p ∈ α, p.1 < n) ∧ degree α ≤ d

theorem plainFn_closed (H : ℝ → Prop) : GradClosed (PlainFn H) := by
  constructor
  · exact fun n => ⟨.inl trivial, trivial⟩
  · exact fun b n => ⟨.inl trivial, trivial⟩
  · exact fun a => ⟨.inl trivial, rfl⟩
  · exact ⟨.inl trivial, rfl⟩
  · exact ⟨.inl trivial, rfl⟩
  · exact fun c => ⟨.inl trivial, rfl⟩
  · exact fun c => ⟨.inl trivial, rfl⟩
  · exact ⟨.inl trivial, rfl⟩
  · exact ⟨.inl trivial, rfl⟩
  · exact ⟨.inr (.inl rfl), rfl⟩
  · rintro s ⟨h | h | ⟨t, ht, h | h⟩, -⟩
    · exact h.elim
    · cases h
    · cases h
      exact ⟨.inr (.inr ⟨s, ht, .inr rfl⟩), rfl⟩
    · cases h
  · exact fun id ix n i h => absurd rfl (lib_ne_dfun h.1 id ix)

theorem plainFn_norm (H : ℝ → Prop) (f : Fn ℝ) (k : Nat) : PlainFn H f.norm k ↔ PlainFn H f k := by
  cases f
  case prod b => exact iff_of_true ⟨.inl trivial, trivial⟩ ⟨.inl trivial, trivial⟩
  case pow a => exact and_congr (iff_of_true (.inl trivial) (.inl trivial)) Iff.rfl
  all_goals exact Iff.rfl

theorem svFn_ok (H : ℝ → Prop) (names : List String) (A : List DVar) : SynOk (PlainFn H) A (SvFn names A.length) := by
  refine ⟨plainFn_closed H, plainFn_norm H, fun id ix k h => lib_ne_dfun h.1 id ix rfl, ?_, ?_, ?_⟩
  · rintro d f ⟨s, -, α, rfl, -⟩
    exact ⟨s, α, rfl⟩
  · rintro d f ⟨s, hs, α, rfl, h1, h2, h3⟩
    exact ⟨s, hs, α, rfl, h1, h2, by omega⟩
  · rintro d id ix i ⟨s, hs, α, h, h1, h2, h3⟩ hi
    cases h
    refine ⟨id, hs, _, rfl, ?_, ?_, ?_⟩
    · rw [bump_eq_add h1]; exact addIdx_sane h1
    · rw [bump_eq_add h1]
      intro p hp
      rcases addIdx_mem hp with hp | ⟨r, hr, hp⟩
      · omega
      · rw [← hp]; exact h2 r hr
    · rw [bump_eq_add h1, addIdx_degree]; omega

/-- The right-hand sides after the substitution of the state variables. -/
theorem subs_cl {H : ℝ → Prop} {names : List String} {A : List DVar} {R : Nat → Prop} {e : Expr ℝ}
    (h : GoodS (PlainFn H) (· ∈ names) R e) :
    Cl (PlainFn H) R (A.map ofDVar) (SvFn names A.length 0) (e.mapNodes (subsLeaf (svSubs names (A.map ofDVar))) id) := by
  induction e using Expr.ind with
  | num n => trivial
  | par i => exact h
  | var s =>
    have hs : s ∈ names := h
    rw [Expr.mapNodes, subsLeaf, svSubs, if_pos (by simpa using hs), Option.getD_some, cl_fn]
    exact .inr ⟨⟨s, hs, [], rfl, ⟨.nil, by simp⟩, by simp, by simp [degree]⟩, rfl⟩
  | fn f args ih =>
    rw [goodS_fn] at h
    rw [Expr.mapNodes, Expr.mapNodesL_eq_map, id, cl_fn]
    refine .inl ⟨by simpa using h.1, fun a ha => ?_⟩
    obtain ⟨b, hb, rfl⟩ := List.mem_map.1 ha
    exact ih b hb (h.2 b hb)

theorem subs_lib {H : ℝ → Prop} {names : List String} {A : List (Expr ℝ)} (hA : ∀ a ∈ A, LibExpr H a) {e : Expr ℝ} (h : LibExpr H e) :
    LibExpr H (e.mapNodes (subsLeaf (svSubs names A)) id) := by
  induction e using Expr.ind with
  | num n => trivial
  | par i => exact h
  | var s =>
    rw [Expr.mapNodes, subsLeaf, svSubs]
    split_ifs
    · exact goodS_fn.2 ⟨⟨.inr ⟨_, _, rfl⟩, trivial⟩, hA⟩
    · trivial
  | fn f args ih =>
    have h := goodS_fn.1 h
    rw [Expr.mapNodes, Expr.mapNodesL_eq_map, id]
    refine goodS_fn.2 ⟨by simpa using h.1, fun a ha => ?_⟩
    obtain ⟨b, hb, rfl⟩ := List.mem_map.1 ha
    exact ih b hb (h.2 b hb)

/-! ### The map from the `dfun` objects to the variables -/

/-- The variable of the variational system standing for a derivative of a state variable. -/
def lhsName (s : String) (α : List (Nat × Nat)) : String := if α.isEmpty then s else varName s α

section
variable {names : List String} {args : List (Expr ℝ)} [FmtName ℝ]

theorem dfunMake_ok {s : String} {α : List (Nat × Nat)} {d : Expr ℝ} (h : dfunMake s args α = .ok d) : d = .fn (.dfun s α) args := by
  unfold dfunMake at h
  split_ifs at h
  cases h
  rfl

theorem lhsMap_ok {l : List (SIdx × Expr ℝ)} : ∀ {m : List (Expr ℝ × Expr ℝ)}, lhsMap names args l = .ok m →
    m.length = l.length ∧ ∀ (k : Nat) (q : SIdx × Expr ℝ), l[k]? = some q → ∃ s, names[q.1.1]? = some s ∧
      m[k]? = some (.fn (.dfun s q.1.2) args, .var (lhsName s q.1.2)) := by
  induction l with
  | nil =>
    intro m h
    cases h
    exact ⟨rfl, fun k q h => by simp at h⟩
  | cons p l ih =>
    intro m h
    rw [lhsMap] at h
    cases hn : names[p.1.1]? with
    | none => simp only [hn] at h; cases h
    | some s =>
      simp only [hn] at h
      cases hd : dfunMake s args p.1.2 with
      | throw => rw [hd] at h; cases h
      | ub => rw [hd] at h; cases h
      | ok d =>
        rw [hd, Res.bind_ok] at h
        cases hr : lhsMap names args l with
        | throw => rw [hr] at h; cases h
        | ub => rw [hr] at h; cases h
        | ok r =>
          rw [hr, Res.bind_ok] at h
          cases h
          obtain ⟨h1, h2⟩ := ih hr
          refine ⟨by simp [h1], fun k q hk => ?_⟩
          cases k with
          | zero =>
            simp only [List.getElem?_cons_zero, Option.some.injEq] at hk
            subst hk
            refine ⟨s, hn, ?_⟩
            rw [List.getElem?_cons_zero, dfunMake_ok hd, lhsName]
            split <;> rfl
          | succ k =>
            rw [List.getElem?_cons_succ] at hk ⊢
            exact h2 k q hk

theorem lhsMap_total {l : List (SIdx × Expr ℝ)} (h : ∀ q ∈ l, q.1.1 < names.length ∧ Dtens.Sane q.1.2 ∧ ∀ p ∈ q.1.2, p.1 < args.length) :
    ∃ m, lhsMap names args l = .ok m := by
  induction l with
  | nil => exact ⟨[], rfl⟩
  | cons q l ih =>
    obtain ⟨m, hm⟩ := ih fun p hp => h p (List.mem_cons_of_mem _ hp)
    obtain ⟨h1, h2, h3⟩ := h q List.mem_cons_self
    rw [lhsMap, List.getElem?_eq_getElem h1]
    simp only
    rw [dfunMake, if_pos ⟨fun p hp => ⟨h3 p hp, h2.2 p hp⟩, List.pairwise_map.2 h2.1⟩, Res.bind_ok, hm, Res.bind_ok]
    exact ⟨_, rfl⟩

/-- The entries of the map. -/
def SvMap (A : List DVar) (m : List (Expr ℝ × Expr ℝ)) : Prop :=
  ∀ p ∈ m, ∃ s α, p = (.fn (.dfun s α) (A.map ofDVar), .var (lhsName s α))

variable {A : List DVar} {m : List (Expr ℝ × Expr ℝ)} {H : ℝ → Prop}

theorem SvMap.find_plain (h : SvMap A m) {f : Fn ℝ} (hf : f.lib H) (as : List (Expr ℝ)) : mapFind m (.fn f as) = none := by
  cases hm : mapFind m (.fn f as) with
  | none => rfl
  | some r =>
    obtain ⟨k, hk, hb⟩ := mapFind_some hm
    obtain ⟨s, α, hp⟩ := h _ hk
    cases hp
    rw [Expr.beq, Bool.and_eq_true, beq_iff_eq] at hb
    exact absurd hb.1.symm (lib_not_dfun hf s α)

theorem SvMap.find_leaf (h : SvMap A m) {e : Expr ℝ} (he : e.isFn = false) : mapFind m e = none := by
  cases hm : mapFind m e with
  | none => rfl
  | some r =>
    obtain ⟨k, hk, hb⟩ := mapFind_some hm
    obtain ⟨s, α, hp⟩ := h _ hk
    cases hp
    cases e with
    | fn f as => cases he
    | num n => cases hb
    | var n => cases hb
    | par n => cases hb

theorem SvMap.find_sv (h : SvMap A m) {s : String} {α : List (Nat × Nat)} {r : Expr ℝ}
    (hm : (.fn (.dfun s α) (A.map ofDVar), r) ∈ m) : mapFind m (.fn (.dfun s α) (A.map ofDVar)) = some (.var (lhsName s α)) := by
  cases hf : mapFind m (.fn (.dfun s α) (A.map ofDVar)) with
  | none =>
    have := mapFind_none hf _ hm
    rw [Expr.beq_refl] at this
    cases this
  | some r =>
    obtain ⟨k, hk, hb⟩ := mapFind_some hf
    obtain ⟨t, β, hp⟩ := h _ hk
    cases hp
    rw [Expr.beq, Bool.and_eq_true, beq_iff_eq] at hb
    obtain ⟨rfl, rfl⟩ := dfunName_inj hb.1
    rfl

/-- The entries of the map built by the constructor. -/
theorem svMap_of {l : List (SIdx × Expr ℝ)} (hm : lhsMap names (A.map ofDVar) l = .ok m) : SvMap A m := by
  obtain ⟨h1, h2⟩ := lhsMap_ok hm
  intro p hp
  obtain ⟨k, hk⟩ := List.getElem?_of_mem hp
  have hlt : k < l.length := by rw [← h1]; exact (List.getElem?_eq_some_iff.1 hk).1
  obtain ⟨s, -, h3⟩ := h2 k _ (List.getElem?_eq_getElem hlt)
  rw [hk] at h3
  exact ⟨s, _, Option.some.inj h3⟩

/-! ### The replacement -/

variable {R : Nat → Prop} {Df : Fn ℝ → Prop} {e : Expr ℝ}

theorem replace_fn {find : Expr ℝ → Option (Expr ℝ)} {f : Fn ℝ} {as : List (Expr ℝ)} (h : find (.fn f as) = none) :
    (Expr.fn f as).replace find = .fn f (as.map (Expr.replace find)) := by
  rw [Expr.replace, h, Option.getD_none, Expr.replaceL_eq_map]

/-- After the replacement the expressions contain only the given variables. -/
theorem SvMap.replace_good (h : SvMap A m) {Q : String → Prop}
    (hsv : ∀ f, Df f → ∃ s, Q s ∧ mapFind m (.fn f (A.map ofDVar)) = some (.var s))
    (he : Cl (PlainFn H) R (A.map ofDVar) Df e) : GoodS (PlainFn H) Q R (e.replace (mapFind m)) := by
  induction e using Expr.ind with
  | num n => rw [Expr.replace, h.find_leaf rfl, Option.getD_none]; trivial
  | var s => exact he.elim
  | par i => rw [Expr.replace, h.find_leaf rfl, Option.getD_none]; exact he
  | fn f as ih =>
    rw [cl_fn] at he
    rcases he with he | ⟨hf, rfl⟩
    · rw [replace_fn (h.find_plain he.1.1 as), goodS_fn]
      refine ⟨by simpa using he.1, fun a ha => ?_⟩
      obtain ⟨b, hb, rfl⟩ := List.mem_map.1 ha
      exact ih b hb (he.2 b hb)
    · obtain ⟨s, hs, hfi⟩ := hsv f hf
      rw [Expr.replace, hfi, Option.getD_some]
      exact hs

/-- The value after the replacement. -/
theorem SvMap.replace_eval (h : SvMap A m) (D D' : DFunc) {u w : Env ℝ} (hp : w.par = u.par) (ht : w.time = u.time)
    (hsv : ∀ f, Df f → ∃ s, mapFind m (.fn f (A.map ofDVar)) = some (.var s) ∧
      @Expr.eval ℝ _ (@realInterp D) u (.fn f (A.map ofDVar)) = some (w.var s))
    (he : Cl (PlainFn H) R (A.map ofDVar) Df e) :
    @Expr.eval ℝ _ (@realInterp D') w (e.replace (mapFind m)) = @Expr.eval ℝ _ (@realInterp D) u e := by
  induction e using Expr.ind with
  | num n => rw [Expr.replace, h.find_leaf rfl, Option.getD_none]; simp
  | var s => exact he.elim
  | par i => rw [Expr.replace, h.find_leaf rfl, Option.getD_none]; simp [hp]
  | fn f as ih =>
    rw [cl_fn] at he
    rcases he with he | ⟨hf, rfl⟩
    · rw [replace_fn (h.find_plain he.1.1 as)]
      by_cases hft : f = .time ∧ as = []
      · obtain ⟨rfl, rfl⟩ := hft
        simp [Expr.eval, ht]
      · have hf' : f ≠ .time ∨ as ≠ [] := by
          by_cases h1 : f = .time
          · exact .inr fun h2 => hft ⟨h1, h2⟩
          · exact .inl h1
        have hf'' : f ≠ .time ∨ as.map (Expr.replace (mapFind m)) ≠ [] := hf'.imp_right (by simp)
        rw [@Expr.eval_fn ℝ _ _ (@realInterp D) _ _ _ hf', @Expr.eval_fn ℝ _ _ (@realInterp D') _ _ _ hf'']
        have hL : @Expr.evalL ℝ _ (@realInterp D') w (as.map (Expr.replace (mapFind m))) = @Expr.evalL ℝ _ (@realInterp D) u as := by
          have := fun a ha => ih a ha (he.2 a ha)
          clear * - this
          induction as with
          | nil => simp
          | cons a as iha =>
            rw [List.map_cons, @Expr.evalL_cons ℝ _ _ (@realInterp D), @Expr.evalL_cons ℝ _ _ (@realInterp D'),
              this a List.mem_cons_self, iha fun b hb => this b (List.mem_cons_of_mem _ hb)]
        rw [hL]
        congr 1
        funext xs
        exact realApp_indep D' D (lib_ne_dfun he.1.1) xs
    · obtain ⟨s, hfi, hv⟩ := hsv f hf
      rw [Expr.replace, hfi, Option.getD_some, hv]
      simp

end

end Heyoka.Sym

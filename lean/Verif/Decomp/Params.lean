import Verif.Decomp.FunDecLemmas

/-!
# The parameters of a decomposition

No step of the decomposition introduces parameters.
-/

set_option linter.unusedSectionVars false

namespace Heyoka.Sym

variable {K : Type}

/-- The indices of all the parameters in the expression satisfy `R`. -/
def ParsIn (R : Nat → Prop) (e : Expr K) : Prop := e.Good (fun _ => True) (fun _ => True) R

theorem parsIn_rename {R : Nat → Prop} {m : List (String × String)} {e : Expr K} (h : ParsIn R e) :
    ParsIn R (renameIn m e) := Expr.Good.rename (fun _ _ => trivial) h

theorem parsIn_fn {R : Nat → Prop} {f : Fn K} {args : List (Expr K)} :
    ParsIn R (.fn f args) ↔ ∀ a ∈ args, ParsIn R a := by
  rw [ParsIn, Expr.good_fn]
  exact ⟨fun h => h.2, fun h => ⟨trivial, h⟩⟩

theorem Expr.Good.parsIn {P : Fn K → Prop} {Q : String → Prop} {R : Nat → Prop} {e : Expr K}
    (h : e.Good P Q R) : ParsIn R e := h.mono (fun _ _ => trivial) fun _ _ _ => trivial

theorem stands_pars {R : Nat → Prop} {Def : List (Expr K) → Nat → Expr K → Prop} {dc : List (Expr K)}
    {as as' : List (Expr K)} (h : List.Forall₂ (Stands Def dc) as' as) (hg : ∀ a ∈ as, ParsIn R a) :
    ∀ a ∈ as', ParsIn R a := by
  induction h with
  | nil => simp
  | @cons b' b l' l h1 _ ih =>
    intro a ha
    rcases List.mem_cons.1 ha with rfl | ha
    · unfold Stands at h1
      split at h1
      · obtain ⟨i, rfl, -⟩ := h1
        trivial
      · subst h1
        exact hg _ List.mem_cons_self
    · exact ih (fun x hx => hg x (List.mem_cons_of_mem _ hx)) a ha

/-- The invariant of the construction of the decomposition. -/
def parSpec (R : Nat → Prop) : DecSpec (K := K) fdcAppend where
  Inv := fun dc => ∀ e ∈ dc, ParsIn R e
  Def := fun _ _ _ => True
  good := fun _ as => ∀ a ∈ as, ParsIn R a
  mono := fun _ => trivial
  ok := by
    intro dc f as as' hi hg hst
    refine ⟨dc.length, [.fn f as'], rfl, fun e he => ?_, trivial⟩
    rcases List.mem_append.1 he with he | he
    · exact hi e he
    · rw [List.mem_singleton] at he
      subst he
      rw [parsIn_fn]
      exact stands_pars hst hg

theorem decAll_pars {R : Nat → Prop} {vars : List (Expr K)} {ns : List (Node K)} {es : List (Expr K)}
    (hr : Represents ns es) (hv : ∀ e ∈ vars, ParsIn R e) (hg : ∀ e ∈ es, ParsIn R e) :
    ∃ N d outs, (∀ fuel, N ≤ fuel → decAll fdcAppend fuel [] [] vars ns = some (.ok (vars ++ d, outs))) ∧
      ∀ e ∈ (vars ++ d) ++ outs, ParsIn R e := by
  obtain ⟨h, roots, hval, hroots, rfl, hes⟩ := hr
  have hmem : ∀ n ∈ roots.map h.unfold, n.toExpr ∈ es := fun n hn => by
    rw [← hes]; exact List.mem_map_of_mem hn
  obtain ⟨N, d, outs, h1, h2, h3⟩ := (parSpec R).decAll_eq
    (good_consistent (Heap.consistent hval) (fun _ => True) (fun _ => True) R)
    (fun id sid f args hu => by
      have := hu.2
      rw [Node.toExpr, Expr.good_fn] at this
      exact this.2)
    (roots.map h.unfold) (fun n hn => by
      refine ⟨?_, hg _ (hmem n hn)⟩
      obtain ⟨r, hr, rfl⟩ := List.mem_map.1 hn
      exact ⟨r, hroots r hr, rfl⟩)
    [] [] vars hv (by intro id r h; simp at h) (by intro k s h; simp at h)
  refine ⟨N, d, outs, h1, fun e he => ?_⟩
  rcases List.mem_append.1 he with he | he
  · exact h2 e he
  · rw [hes] at h3
    exact stands_pars h3 hg e he

section
variable [Field K] [LinearOrder K] [FmtName K]

theorem cseLoop_pars {R : Nat → Prop} (es : List (Expr K)) : ∀ i ret exMap ren,
    (∀ e ∈ ret, ParsIn R e) → (∀ e ∈ es, ParsIn R e) →
    ∀ e ∈ (cseLoop i ret exMap ren es).1, ParsIn R e := by
  induction es with
  | nil => intro i ret exMap ren h _; exact h
  | cons e es ih =>
    intro i ret exMap ren h he
    rw [cseLoop]
    split
    · exact ih _ _ _ _ h fun x hx => he x (List.mem_cons_of_mem _ hx)
    · refine ih _ _ _ _ (fun x hx => ?_) fun x hx => he x (List.mem_cons_of_mem _ hx)
      rcases List.mem_append.1 hx with hx | hx
      · exact h x hx
      · rw [List.mem_singleton] at hx
        subst hx
        exact parsIn_rename (he e List.mem_cons_self)

theorem cse_pars {R : Nat → Prop} {nvars nouts : Nat} {dc : List (Expr K)} (h : ∀ e ∈ dc, ParsIn R e) :
    ∀ e ∈ cse nvars nouts dc, ParsIn R e := by
  intro e he
  rw [cse] at he
  rcases List.mem_append.1 he with he | he
  · exact cseLoop_pars _ _ _ _ _ (fun x hx => h x (List.mem_of_mem_take hx))
      (fun x hx => h x (List.mem_of_mem_drop (List.mem_of_mem_take hx))) e he
  · obtain ⟨x, hx, rfl⟩ := List.mem_map.1 he
    exact parsIn_rename (h x (List.mem_of_mem_drop hx))

theorem sort_pars {R : Nat → Prop} {fuel nvars nouts : Nat} {dc dc' : List (Expr K)}
    (h : ∀ e ∈ dc, ParsIn R e) (hs : sortDc fuel nvars nouts dc = some (.ok dc')) :
    ∀ e ∈ dc', ParsIn R e := by
  unfold sortDc at hs
  simp only at hs
  cases hg : graphEdges nvars 0 (dc.take (dc.length - nouts)) with
  | throw => rw [hg] at hs; cases hs
  | ub => rw [hg] at hs; cases hs
  | ok es =>
    rw [hg] at hs
    simp only at hs
    cases hk : kahnLoop fuel es [0] [] with
    | none => rw [hk] at hs; cases hs
    | some p =>
      rw [hk] at hs
      simp only at hs
      split_ifs at hs
      any_goals (cases hs; done)
      injection hs with hs
      injection hs with hs
      subst hs
      intro e he
      obtain ⟨x, hx, rfl⟩ := List.mem_map.1 he
      refine parsIn_rename (h x ?_)
      rcases List.mem_append.1 hx with hx | hx
      · obtain ⟨i, -, hi⟩ := List.mem_filterMap.1 hx
        exact List.mem_of_getElem? hi
      · exact List.mem_of_mem_drop hx

theorem sincos_pars {R : Nat → Prop} {dc : List (Expr K)} (h : ∀ e ∈ dc, ParsIn R e) :
    ∀ e ∈ sincosCombine dc, ParsIn R e := by
  intro e he
  obtain ⟨x, hx, rfl⟩ := List.mem_map.1 he
  have := h x hx
  unfold sincosElem
  split
  · split_ifs
    · rw [parsIn_fn] at this ⊢; exact this
    · exact this
  · split_ifs
    · rw [parsIn_fn] at this ⊢; exact this
    · exact this
  · exact this

end

section
variable [Field K] [LinearOrder K] [FloorRing K] [Interp K] [FmtName K]

/-- The parameters of the decomposition of a function are parameters of the function. -/
theorem functionDecompose_pars {R : Nat → Prop} {share : List (Expr K) → List (Node K)}
    {es : List (Expr K)} {names : List String}
    (hsh : Represents (share (es.map fun e => renameIn (renMap names) (rewritesEval e)))
      (es.map fun e => renameIn (renMap names) (rewritesEval e)))
    (hg : ∀ e ∈ es, ParsIn R e) {N : Nat} {dc : List (Expr K)}
    (hdc : ∀ fuel, N ≤ fuel → functionDecompose fuel share es (names.map .var) = some (.ok dc)) :
    ∀ e ∈ dc, ParsIn R e := by
  obtain ⟨N1, d, outs, h1, h2⟩ := decAll_pars (R := R) (vars := names.map .var) hsh
    (fun e he => by obtain ⟨s, -, rfl⟩ := List.mem_map.1 he; trivial)
    (fun e he => by
      obtain ⟨x, hx, rfl⟩ := List.mem_map.1 he
      exact parsIn_rename (rewritesEval_good ⟨trivial, fun _ => trivial, fun _ => trivial, trivial, trivial,
        trivial, trivial, trivial, trivial, trivial⟩ (hg x hx)))
  have h3 := hdc (max N N1) (le_max_left _ _)
  unfold functionDecompose at h3
  cases hr : rawDecompose (max N N1) share es (names.map .var) with
  | none => rw [hr] at h3; cases h3
  | some r =>
    rw [hr] at h3
    cases r with
    | throw => cases h3
    | ub => cases h3
    | ok dc0 =>
      have hdc0 : ∀ e ∈ dc0, ParsIn R e := by
        unfold rawDecompose at hr
        split_ifs at hr
        · cases hr
        cases hv : varNames (names.map (Expr.var (K := K))) with
        | none => rw [hv] at hr; cases hr
        | some names' =>
          have hn : names' = names := by
            have h5 := varNames_eq hv
            exact (List.map_injective_iff.2 (fun a b hab => by injection hab)) h5.symm
          subst hn
          rw [hv] at hr
          simp only at hr
          split_ifs at hr
          any_goals (cases hr; done)
          rw [h1 _ (le_max_right _ _)] at hr
          simp only [Option.map_some, Res.bind_ok] at hr
          injection hr with hr
          injection hr with hr
          subst hr
          exact h2
      simp only at h3
      cases hs : sortDc (max N N1) (names.map (Expr.var (K := K))).length es.length
          (cse (names.map (Expr.var (K := K))).length es.length dc0) with
      | none => rw [hs] at h3; cases h3
      | some r =>
        rw [hs] at h3
        cases r with
        | throw => cases h3
        | ub => cases h3
        | ok dc1 =>
          simp only [Option.map_some, Res.bind_ok] at h3
          injection h3 with h3
          injection h3 with h3
          subst h3
          exact sincos_pars (sort_pars (cse_pars hdc0) hs)

end

end Heyoka.Sym

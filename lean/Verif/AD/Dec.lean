import Verif.AD.Loops
import Verif.Decomp.Size

/-!
# The decomposition of the derivatives of one order
-/

set_option linter.unusedSectionVars false

namespace Heyoka.AD

open Heyoka.Sym Heyoka.Dtens

variable [DFunc]

/-! ### More iterations do not change a result -/

theorem loopUntil_mono {σ : Type} {done : σ → Bool} {step : σ → Res σ} {fuel : Nat} :
    ∀ {st : σ} {r : Res σ}, loopUntil done step fuel st = some r → ∀ {fuel' : Nat}, fuel ≤ fuel' →
      loopUntil done step fuel' st = some r := by
  induction fuel with
  | zero =>
    intro st r h fuel' _
    rw [loopUntil] at h
    by_cases hd : done st = true
    · rw [if_pos hd] at h
      cases fuel' <;> rw [loopUntil, if_pos hd, h]
    · rw [if_neg hd] at h; cases h
  | succ fuel ih =>
    intro st r h fuel' hf
    obtain ⟨fuel', rfl⟩ : ∃ k, fuel' = k + 1 := ⟨fuel' - 1, by omega⟩
    rw [loopUntil] at h ⊢
    by_cases hd : done st = true
    · rw [if_pos hd] at h ⊢; exact h
    · rw [if_neg hd] at h ⊢
      cases hs : step st with
      | ok st' => rw [hs] at h; exact ih h (by omega)
      | throw => rw [hs] at h; exact h
      | ub => rw [hs] at h; exact h

theorem decAll_mono {K E : Type} {fdc : Expr K → List E → Res (Nat × List E)} {fuel fuel' : Nat} (hf : fuel ≤ fuel')
    (ns : List (Node K)) : ∀ {fmap : List (Nat × Nat)} {smap : List (Nat × List (Expr K))} {dc : List E}
      {r : Res (List E × List (Expr K))},
    decAll fdc fuel fmap smap dc ns = some r → decAll fdc fuel' fmap smap dc ns = some r := by
  induction ns with
  | nil => intro fmap smap dc r h; exact h
  | cons n ns ih =>
    intro fmap smap dc r h
    rw [decAll] at h ⊢
    cases hl : decLoop fdc fuel ⟨[(n, false)], [], fmap, smap, dc⟩ with
    | none => rw [hl] at h; cases h
    | some x =>
      have hl' : decLoop fdc fuel' ⟨[(n, false)], [], fmap, smap, dc⟩ = some x := loopUntil_mono hl hf
      rw [hl] at h
      rw [hl']
      cases x with
      | throw => exact h
      | ub => exact h
      | ok st =>
        simp only at h ⊢
        split at h
        · cases hr : decAll fdc fuel st.fmap st.smap st.dc ns with
          | none => rw [hr] at h; cases h
          | some rs => rw [hr] at h; rw [ih hr]; exact h
        · exact h

/-! ### The decomposition -/

variable [FmtName ℝ] {S : Fn ℝ → Nat → Prop}

theorem not_leaf_of_good {Q : String → Prop} {R : Nat → Prop} {e : Expr ℝ} (h : GoodS S Q R e) (x : DVar)
    (hx : e.occurs x = true) : (∃ s, x = .var s ∧ Q s) ∨ ∃ i, x = .par i ∧ R i := by
  induction e using Expr.ind with
  | num n => simp [Expr.occurs] at hx
  | var s =>
    simp only [Expr.occurs, decide_eq_true_eq] at hx
    exact .inl ⟨s, hx, h⟩
  | par i =>
    simp only [Expr.occurs, decide_eq_true_eq] at hx
    exact .inr ⟨i, hx, h⟩
  | fn f args ih =>
    rw [goodS_fn] at h
    rw [Expr.occurs, Expr.occursL_eq_any, List.any_eq_true] at hx
    obtain ⟨a, ha, hx⟩ := hx
    exact ih a ha (h.2 a ha) hx

/-- A function in one of the expressions. -/
def SubOf {K : Type} (es : List (Expr K)) (e : Expr K) : Prop :=
  ∀ T : Expr K → Prop, ArgClosed T → (∀ e ∈ es, T e) → T e

theorem subOf_closed {K : Type} (es : List (Expr K)) : ArgClosed (SubOf es) :=
  fun f args h a ha hf T hT he => hT f args (h T hT he) a ha hf

theorem subOf_self {K : Type} {es : List (Expr K)} {e : Expr K} (h : e ∈ es) : SubOf es e := fun _ _ he => he e h

/-- The decomposition of a list of expressions: the containers built from it satisfy the hypotheses of the
chain rule. -/
theorem diffDecompose_spec {P : Fn ℝ → Prop} (hP : NormSound P) (hSP : ∀ f k, S f k → P f) (hS : GradClosed S)
    {share : List (Expr ℝ) → List (Node ℝ)} (hshare : ∀ es, Represents (share es) es)
    {prev : List (SIdx × Expr ℝ)} (hg : ∀ p ∈ prev, GoodS S (fun _ => True) (fun _ => True) p.2) :
    ∃ N c outs, (∀ fuel, N ≤ fuel → diffDecompose fuel share (prev.map (·.2)) = some (.ok (c ++ outs))) ∧
      (∀ fuel r, diffDecompose fuel share (prev.map (·.2)) = some r → r = .ok (c ++ outs)) ∧
      outs.length = prev.length ∧ DcW S (inputs (prev.map (·.2))).length c ∧ (∀ o ∈ outs, LeafOk c.length o) ∧
      ∀ rows, adjRows (inputs (prev.map (·.2))).length outs.length (c ++ outs) = .ok rows →
        Ctx S (inputs (prev.map (·.2))) c outs rows prev := by
  generalize hins : inputs (prev.map (·.2)) = ins
  have hin : ∀ p ∈ prev, GoodS S (fun s => .var s ∈ ins) (fun i => .par i ∈ ins) p.2 := fun p hp =>
    hins ▸ goodS_inputs (List.mem_map_of_mem hp) (hg p hp)
  have hrep := fun p hp => replace_good (split2_goodS hS (hin p hp))
  obtain ⟨N, d, outs, h1, h2, hel, h3⟩ := decAll_expand (S := S) (ins := ins.map ofDVar)
    (hshare ((prev.map (·.2)).map (prep ins))) (by
      intro e he
      rw [List.map_map] at he
      obtain ⟨p, hp, rfl⟩ := List.mem_map.1 he
      exact (hrep p hp).1) (subOf_closed ((prev.map (·.2)).map (prep ins))) fun e he _ => subOf_self he
  obtain ⟨d', outs', h4, h5, -, horig, h6⟩ := cse_expand hP hSP h2 h3
  rw [List.length_map] at h5 h4 horig
  rw [List.length_map, List.length_map] at h4
  have hok : ∀ fuel, N ≤ fuel → diffDecompose fuel share (prev.map (·.2)) =
      some (.ok ((ins.map ofDVar ++ d') ++ outs')) := by
    intro fuel hf
    rw [diffDecompose, rawDc, hins, h1 fuel hf]
    simp only [Option.map_some, Res.bind_ok, List.length_map]
    rw [h4]
  have hout : ∀ o ∈ outs', LeafOk (ins.map ofDVar ++ d').length o := by
    intro o ho
    obtain ⟨k, hk⟩ := List.mem_iff_getElem?.1 ho
    obtain ⟨e, -, h⟩ := forall₂_getElem h6 hk
    exact h.1
  refine ⟨N, ins.map ofDVar ++ d', outs', hok, fun fuel r hr => ?_, by simpa using h6.length_eq, h5, hout, fun rows hrows => ?_⟩
  · have hm : diffDecompose (max N fuel) share (prev.map (·.2)) = some r := by
      rw [diffDecompose, rawDc] at hr ⊢
      cases hd : decAll fdcAppend fuel [] [] ((inputs (prev.map (·.2))).map ofDVar)
          (share ((prev.map (·.2)).map (prep (inputs (prev.map (·.2)))))) with
      | none => rw [hd] at hr; cases hr
      | some x => rw [hd] at hr; rw [decAll_mono (le_max_right _ _) _ hd]; exact hr
    rw [hok _ (le_max_left _ _)] at hm
    injection hm with hm
    exact hm.symm
  · refine ⟨⟨hS, hins ▸ inputs_nodup _, ⟨d', rfl⟩, h5, hout⟩, hrows, ?_, fun p hp => (hrep p hp).2, fun p hp x hx => ?_,
      fun T hT hTp i hi1 hi2 => ?_⟩
    · rw [List.map_map] at h6
      exact h6
    · rcases not_leaf_of_good (hin p hp) x hx with ⟨s, rfl, h⟩ | ⟨i, rfl, h⟩ <;> exact h
    · obtain ⟨j, g1, g2, g3⟩ := horig i hi1 hi2
      obtain ⟨e, k1, k2, k3⟩ := hel j (by rwa [List.length_map]) g2
      rw [List.length_map] at k3
      rw [k3, Option.map_some] at g3
      obtain ⟨e', he', hn⟩ := Option.map_eq_some_iff.1 g3
      refine ⟨e', _, he', ?_, hn⟩
      refine k2 (fun e => T (subsAll (ins.map ofDVar) e)) (fun f args hf a ha hfn => ?_) fun e he => ?_
      · dsimp only at hf
        rw [subsAll_fn] at hf
        refine hT _ _ hf _ (List.mem_map_of_mem ha) ?_
        cases a with
        | fn g bs => rfl
        | _ => cases hfn
      · rw [List.map_map] at he
        obtain ⟨p, hp, rfl⟩ := List.mem_map.1 he
        have h7 : subsAll (ins.map ofDVar) (prep ins p.2) = split2 p.2 := (hrep p hp).2
        show T (subsAll (ins.map ofDVar) (prep ins p.2))
        rw [h7]
        exact hTp p hp

theorem cseLoop_size (es : List (Expr ℝ)) : ∀ (i : Nat) (ret : List (Expr ℝ)) (exMap : List (Expr ℝ × Nat))
    (ren : List (String × String)), (cseLoop i ret exMap ren es).1.length ≤ ret.length + es.length := by
  induction es with
  | nil => intro i ret exMap ren; exact le_rfl
  | cons e es ih =>
    intro i ret exMap ren
    rw [cseLoop]
    split
    · refine (ih _ _ _ _).trans ?_
      simp
    · refine (ih _ _ _ _).trans ?_
      simp; omega

theorem cse_size (n k : Nat) (dc : List (Expr ℝ)) : (cse n k dc).length ≤ max (n + k) dc.length := by
  rw [cse]
  simp only [List.length_append, List.length_map]
  have h := cseLoop_size (dcMid n k dc) n (dc.take n) [] []
  have h1 : (dcMid n k dc).length ≤ dc.length - k - n := by
    rw [dcMid, List.length_take]; omega
  have h2 : (dcOuts k dc).length ≤ k := by
    rw [dcOuts, List.length_drop]; omega
  have h3 : (dc.take n).length ≤ n := by rw [List.length_take]; omega
  omega

/-- The size of a decomposition. -/
theorem diffDecompose_size {share : List (Expr ℝ) → List (Node ℝ)} (hshare : ∀ es, Represents (share es) es)
    {es : List (Expr ℝ)} {fuel : Nat} {dc : List (Expr ℝ)} (h : diffDecompose fuel share es = some (.ok dc)) :
    dc.length ≤ (inputs es).length + Expr.fnCountL (es.map (prep (inputs es))) + es.length := by
  rw [diffDecompose, rawDc] at h
  cases hd : decAll fdcAppend fuel [] [] ((inputs es).map ofDVar) (share (es.map (prep (inputs es)))) with
  | none => rw [hd] at h; cases h
  | some r =>
    rw [hd] at h
    cases r with
    | throw => cases h
    | ub => cases h
    | ok r =>
      obtain ⟨c, outs⟩ := r
      obtain ⟨_, _, -, -, -, hes⟩ := hshare (es.map (prep (inputs es)))
      obtain ⟨h1, h2⟩ := decAll_size fuel _ hd
      rw [hes, List.length_map] at h1
      have h3 : (share (es.map (prep (inputs es)))).length = es.length := by
        have := congrArg List.length hes
        simpa using this
      simp only [Option.map_some, Res.bind_ok, Option.some.injEq, Res.ok.injEq] at h
      subst h
      refine (cse_size _ _ _).trans ?_
      simp only [List.length_append, List.length_map] at h1 ⊢
      omega

end Heyoka.AD

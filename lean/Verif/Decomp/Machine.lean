import Verif.Decomp.Sem
import Verif.Expr.TraverseLemmas2

/-!
# Lemmas on the machine constructing a decomposition
-/

set_option linter.unusedSectionVars false

namespace Heyoka.Sym

variable {K E : Type}

/-- The argument `a'` of a decomposed function stands for the original argument `a`. -/
def Stands (Def : List E → Nat → Expr K → Prop) (dc : List E) (a' a : Expr K) : Prop :=
  if a.isFn then ∃ i, a' = .var (uname i) ∧ Def dc i a else a' = a

/-- What is required of the function appending to the decomposition: `Def dc i e` says that the element `i`
stands for the expression `e`, `Inv` is an invariant of the decomposition, `good` a precondition on
the functions to be decomposed. -/
structure DecSpec (fdc : Expr K → List E → Res (Nat × List E)) where
  Inv : List E → Prop
  Def : List E → Nat → Expr K → Prop
  good : Fn K → List (Expr K) → Prop
  mono : ∀ {dc d i e}, Def dc i e → Def (dc ++ d) i e
  ok : ∀ {dc f as as'}, Inv dc → good f as → List.Forall₂ (Stands Def dc) as' as →
    ∃ i d, fdc (.fn f as') dc = .ok (i, dc ++ d) ∧ Inv (dc ++ d) ∧ Def (dc ++ d) i (.fn f as)

variable {fdc : Expr K → List E → Res (Nat × List E)}

theorem DecSpec.stands_mono (S : DecSpec fdc) {dc d : List E} {a' a : Expr K}
    (h : Stands S.Def dc a' a) : Stands S.Def (dc ++ d) a' a := by
  unfold Stands at h ⊢
  split at h
  · rename_i hf
    rw [if_pos hf]
    obtain ⟨i, h1, h2⟩ := h
    exact ⟨i, h1, S.mono h2⟩
  · rename_i hf
    rw [if_neg hf]
    exact h

/-- The cached indices are right. -/
def DecSpec.FOk (S : DecSpec fdc) (U : Node K → Prop) (dc : List E) (fmap : List (Nat × Nat)) : Prop :=
  ∀ id i, fmap.lookup id = some i → ∀ sid f args, U (.fn id sid f args) →
    S.Def dc i (Node.fn id sid f args).toExpr

/-- The cached arguments are right. -/
def DecSpec.SOk (S : DecSpec fdc) (U : Node K → Prop) (dc : List E)
    (smap : List (Nat × List (Expr K))) : Prop :=
  ∀ k as, smap.lookup k = some as → ∀ id f args, U (.fn id (some k) f args) →
    List.Forall₂ (Stands S.Def dc) as (Node.toExprL args)

/-- A result is right. -/
def DecSpec.ROk (S : DecSpec fdc) (dc : List E) (n : Node K) : Option Nat → Prop
  | some i => n.isFn = true ∧ S.Def dc i n.toExpr
  | none => n.isFn = false

theorem DecSpec.FOk.mono {S : DecSpec fdc} {U : Node K → Prop} {dc d : List E} {fmap}
    (h : S.FOk U dc fmap) : S.FOk U (dc ++ d) fmap :=
  fun id i hl sid f args hu => S.mono (h id i hl sid f args hu)

theorem DecSpec.SOk.mono {S : DecSpec fdc} {U : Node K → Prop} {dc d : List E} {smap}
    (h : S.SOk U dc smap) : S.SOk U (dc ++ d) smap :=
  fun k as hl id f args hu => (h k as hl id f args hu).imp fun _ _ => S.stands_mono

theorem DecSpec.ROk.mono {S : DecSpec fdc} {dc d : List E} {n : Node K} {r : Option Nat}
    (h : S.ROk dc n r) : S.ROk (dc ++ d) n r := by
  cases r with
  | some i => exact ⟨h.1, S.mono h.2⟩
  | none => exact h

theorem DecSpec.FOk.cons {S : DecSpec fdc} {U : Node K → Prop} (hU : Consistent U) {dc : List E}
    {id sid f args i fmap} (h : S.FOk U dc fmap) (hu : U (.fn id sid f args))
    (hd : S.Def dc i (Node.fn id sid f args).toExpr) : S.FOk U dc ((id, i) :: fmap) := by
  intro id' j hj sid' f' args' hu'
  rcases lookup_cons_cases hj with ⟨rfl, rfl⟩ | ⟨-, hl⟩
  · rw [← hU.id_inj hu hu']; exact hd
  · exact h id' j hl sid' f' args' hu'

theorem DecSpec.SOk.cons {S : DecSpec fdc} {U : Node K → Prop} (hU : Consistent U) {dc : List E}
    {id k f args as smap} (h : S.SOk U dc smap) (hu : U (.fn id (some k) f args))
    (hd : List.Forall₂ (Stands S.Def dc) as (Node.toExprL args)) : S.SOk U dc ((k, as) :: smap) := by
  intro k' as' hj id' f' args' hu'
  rcases lookup_cons_cases hj with ⟨rfl, rfl⟩ | ⟨-, hl⟩
  · rw [← hU.sid_inj hu hu']; exact hd
  · exact h k' as' hl id' f' args' hu'

theorem Node.isFn_toExpr (n : Node K) : n.toExpr.isFn = n.isFn := by
  cases n <;> simp [Node.toExpr, Node.isFn, Expr.isFn]

theorem newArgs_eq (S : DecSpec fdc) {dc : List E} {args : List (Node K)} {is : List (Option Nat)}
    (h : List.Forall₂ (S.ROk dc) args is) :
    ∃ as, newArgs args is = .ok as ∧ List.Forall₂ (Stands S.Def dc) as (Node.toExprL args) := by
  induction h with
  | nil => exact ⟨[], rfl, by simp [Node.toExprL]⟩
  | @cons a i args is h1 _ ih =>
    obtain ⟨as, hn, hs⟩ := ih
    cases i with
    | none =>
      have h2 : a.isFn = false := h1
      refine ⟨a.toExpr :: as, by simp [newArgs, h2, hn], ?_⟩
      rw [Node.toExprL]
      refine .cons ?_ hs
      rw [Stands, Node.isFn_toExpr, h2]
      simp
    | some i =>
      refine ⟨.var (uname i) :: as, by simp [newArgs, h1.1, hn], ?_⟩
      rw [Node.toExprL]
      refine .cons ?_ hs
      rw [Stands, Node.isFn_toExpr, h1.1]
      exact ⟨i, rfl, h1.2⟩

/-- The machine, started in `st`, gets to `st'`. -/
def DGoes (fdc : Expr K → List E → Res (Nat × List E)) (st st' : DState K E) : Prop :=
  LGoes (fun st => st.stack.isEmpty) (decStep fdc) st (.ok st')

theorem DGoes.trans {st st' st'' : DState K E} (h : DGoes fdc st st') (h' : DGoes fdc st' st'') :
    DGoes fdc st st'' := LGoes.trans h h'

theorem DGoes.of_step {st st' : DState K E} (hne : st.stack ≠ []) (h : decStep fdc st = .ok st') :
    DGoes fdc st st' := LGoes.of_step (by simpa using hne) h

/-- What processing an item of the stack does. -/
def DecSpec.Proc (S : DecSpec fdc) (U : Node K → Prop) (n : Node K) : Prop :=
  ∀ rest out fmap smap dc, S.Inv dc → S.FOk U dc fmap → S.SOk U dc smap →
    ∃ r fmap' smap' d,
      DGoes fdc ⟨(n, false) :: rest, out, fmap, smap, dc⟩
        ⟨rest, some r :: out, fmap', smap', dc ++ d⟩ ∧
      S.Inv (dc ++ d) ∧ S.FOk U (dc ++ d) fmap' ∧ S.SOk U (dc ++ d) smap' ∧
      FNew U n.size fmap fmap' ∧ SNew U n.size smap smap' ∧ S.ROk (dc ++ d) n r

theorem DecSpec.procL (S : DecSpec fdc) (U : Node K → Prop) (args : List (Node K))
    (h : ∀ a ∈ args, S.Proc U a) (rest out fmap smap dc) (hi : S.Inv dc) (hf : S.FOk U dc fmap)
    (hs : S.SOk U dc smap) :
    ∃ rs fmap' smap' d,
      DGoes fdc ⟨args.reverse.map (·, false) ++ rest, out, fmap, smap, dc⟩
        ⟨rest, rs.map some ++ out, fmap', smap', dc ++ d⟩ ∧
      S.Inv (dc ++ d) ∧ S.FOk U (dc ++ d) fmap' ∧ S.SOk U (dc ++ d) smap' ∧
      FNew U (Node.sizeL args) fmap fmap' ∧ SNew U (Node.sizeL args) smap smap' ∧
      List.Forall₂ (S.ROk (dc ++ d)) args rs := by
  induction args generalizing rest with
  | nil =>
    exact ⟨[], fmap, smap, [], by simpa [DGoes] using LGoes.refl _, by simpa using hi, by simpa using hf,
      by simpa using hs, .refl, .refl, .nil⟩
  | cons a as ih =>
    obtain ⟨rs, fm, sm, d, hg, hi1, hf1, hs1, hfn, hsn, hr⟩ :=
      ih (fun b hb => h b (List.mem_cons_of_mem _ hb)) ((a, false) :: rest)
    obtain ⟨r, fm', sm', d', hg', hi2, hf2, hs2, hfn', hsn', hr'⟩ :=
      h a List.mem_cons_self rest (rs.map some ++ out) fm sm (dc ++ d) hi1 hf1 hs1
    refine ⟨r :: rs, fm', sm', d ++ d', ?_, ?_⟩
    · have hst : (a :: as).reverse.map (fun n => (n, false)) ++ rest =
          as.reverse.map (·, false) ++ (a, false) :: rest := by simp
      rw [hst, ← List.append_assoc]
      exact hg.trans hg'
    · rw [← List.append_assoc]
      refine ⟨hi2, hf2, hs2, ?_, ?_, .cons hr' (hr.imp fun _ _ h => h.mono)⟩
      · exact hfn.trans hfn' (by simp [Node.sizeL]) (by simp [Node.sizeL])
      · exact hsn.trans hsn' (by simp [Node.sizeL]) (by simp [Node.sizeL])

theorem DecSpec.proc (S : DecSpec fdc) {U : Node K → Prop} (hU : Consistent U)
    (hgood : ∀ id sid f args, U (.fn id sid f args) → S.good f (Node.toExprL args)) :
    ∀ (N : Nat) (n : Node K), n.size ≤ N → U n → S.Proc U n := by
  intro N
  induction N with
  | zero =>
    intro n hn
    cases n <;> simp [Node.size] at hn
  | succ N ih =>
    intro n hn hu rest out fmap smap dc hi hf hs
    have leafcase : ∀ m : Node K, m.isFn = false →
        decStep fdc ⟨(m, false) :: rest, out, fmap, smap, dc⟩ =
          .ok ⟨rest, some none :: out, fmap, smap, dc⟩ →
        ∃ r fmap' smap' d,
          DGoes fdc ⟨(m, false) :: rest, out, fmap, smap, dc⟩
            ⟨rest, some r :: out, fmap', smap', dc ++ d⟩ ∧
          S.Inv (dc ++ d) ∧ S.FOk U (dc ++ d) fmap' ∧ S.SOk U (dc ++ d) smap' ∧
          FNew U m.size fmap fmap' ∧ SNew U m.size smap smap' ∧ S.ROk (dc ++ d) m r := by
      intro m hm hstep
      refine ⟨none, fmap, smap, [], ?_, by simpa using hi, by simpa using hf, by simpa using hs, .refl,
        .refl, hm⟩
      simpa using DGoes.of_step (by simp) hstep
    cases n with
    | num k => exact leafcase (.num k) rfl rfl
    | var k => exact leafcase (.var k) rfl rfl
    | par k => exact leafcase (.par k) rfl rfl
    | fn id sid f args =>
      cases hfl : fmap.lookup id with
      | some i =>
        refine ⟨some i, fmap, smap, [], ?_, by simpa using hi, by simpa using hf, by simpa using hs,
          .refl, .refl, rfl, ?_⟩
        · simpa using DGoes.of_step (fdc := fdc) (by simp)
            (by simp [decStep, hfl] : decStep fdc ⟨(.fn id sid f args, false) :: rest, out, fmap, smap,
              dc⟩ = .ok ⟨rest, some (some i) :: out, fmap, smap, dc⟩)
        · simpa using hf id i hfl sid f args hu
      | none =>
      cases hsl : sid.bind (fun k => smap.lookup k) with
      | some as =>
        obtain ⟨k, rfl, hk⟩ : ∃ k, sid = some k ∧ smap.lookup k = some as := by
          cases sid with
          | none => simp at hsl
          | some k => exact ⟨k, rfl, by simpa using hsl⟩
        obtain ⟨i, d, h1, h2, h3⟩ := S.ok hi (hgood _ _ _ _ hu) (hs k as hk id f args hu)
        refine ⟨some i, (id, i) :: fmap, smap, d, DGoes.of_step (by simp) ?_, h2,
          hf.mono.cons hU hu h3, hs.mono, .cons hu, .refl, rfl, h3⟩
        simp only [decStep, hfl, hsl, h1, Res.bind_ok]
      | none =>
        have hsz : (Node.fn id sid f args).size = Node.sizeL args + 1 := rfl
        have hstep1 : DGoes fdc ⟨(.fn id sid f args, false) :: rest, out, fmap, smap, dc⟩
            ⟨args.reverse.map (·, false) ++ (.fn id sid f args, true) :: rest,
              none :: out, fmap, smap, dc⟩ :=
          DGoes.of_step (by simp) (by simp only [decStep, hfl, hsl])
        obtain ⟨rs, fm, sm, d, hg, hi1, hf1, hs1, hfn, hsn, hr⟩ := S.procL U args
          (fun a ha => ih a (by have := Node.size_le_sizeL ha; omega) (hU.closed hu a ha))
          ((.fn id sid f args, true) :: rest) (none :: out) fmap smap dc hi hf hs
        have hid : fm.lookup id = none := by
          by_contra hne
          rcases hfn id (Option.isSome_iff_ne_none.2 hne) with h | ⟨sid', f', args', hu', hs'⟩
          · simp [hfl] at h
          · rw [← hU.id_inj hu hu'] at hs'; omega
        have hsid : sid.bind (fun k => sm.lookup k) = none := by
          cases sid with
          | none => rfl
          | some k =>
            by_contra hne
            rcases hsn k (Option.isSome_iff_ne_none.2 hne) with h | ⟨id', f', args', hu', hs'⟩
            · simp only [Option.bind_some] at hsl; simp [hsl] at h
            · have := hU.sid_inj hu hu'
              subst this
              simp only [Node.size] at hs'; omega
        have hpop : popArgs args.length (rs.map some ++ none :: out) = .ok (rs, none :: out) := by
          rw [hr.length_eq]; exact popArgs_append _ _
        obtain ⟨as, hna, hst⟩ := newArgs_eq S hr
        obtain ⟨i, d', h1, h2, h3⟩ := S.ok hi1 (hgood _ _ _ _ hu) hst
        refine ⟨some i, (id, i) :: fm, addShared sid as sm, d ++ d', ?_, ?_⟩
        · rw [← List.append_assoc]
          refine (hstep1.trans hg).trans (DGoes.of_step (by simp) ?_)
          simp [decStep, hid, hpop, hna, hsid, h1]
        · rw [← List.append_assoc]
          refine ⟨h2, hf1.mono.cons hU hu h3, ?_, hfn.trans (.cons hu) (by omega) (le_refl _), ?_, rfl,
            h3⟩
          · cases sid with
            | none => exact hs1.mono
            | some k => exact DecSpec.SOk.cons hU hs1.mono hu (hst.imp fun _ _ => S.stands_mono)
          · cases sid with
            | none => exact hsn.trans .refl (by omega) (le_refl _)
            | some k => exact hsn.trans (.cons hu) (by omega) (le_refl _)

/-- The decomposition of a list of expressions ends, does not fail any assertion and appends elements
standing for the expressions. -/
theorem DecSpec.decAll_eq (S : DecSpec fdc) {U : Node K → Prop} (hU : Consistent U)
    (hgood : ∀ id sid f args, U (.fn id sid f args) → S.good f (Node.toExprL args))
    (ns : List (Node K)) (hns : ∀ n ∈ ns, U n) (fmap smap dc) (hi : S.Inv dc) (hf : S.FOk U dc fmap)
    (hs : S.SOk U dc smap) :
    ∃ N d outs, (∀ fuel, N ≤ fuel → decAll fdc fuel fmap smap dc ns = some (.ok (dc ++ d, outs))) ∧
      S.Inv (dc ++ d) ∧
      List.Forall₂ (Stands S.Def (dc ++ d)) outs (ns.map Node.toExpr) := by
  induction ns generalizing fmap smap dc with
  | nil => exact ⟨0, [], [], fun fuel _ => by simp [decAll], by simpa using hi, .nil⟩
  | cons n ns ih =>
    obtain ⟨r, fm, sm, d, ⟨k, hk⟩, hi1, hf1, hs1, -, -, hr⟩ :=
      S.proc hU hgood n.size n (le_refl _) (hns n List.mem_cons_self) [] [] fmap smap dc hi hf hs
    obtain ⟨N, d', outs, hN, hi2, hst⟩ :=
      ih (fun m hm => hns m (List.mem_cons_of_mem _ hm)) fm sm (dc ++ d) hi1 hf1 hs1
    refine ⟨max k N, d ++ d', decOut n.toExpr r :: outs,
      fun fuel hfuel => ?_, ?_, ?_⟩
    · obtain ⟨m, rfl⟩ := Nat.exists_eq_add_of_le (le_trans (le_max_left _ _) hfuel)
      have h1 := (hk m).trans (loopUntil_done (by simp) m)
      rw [decAll, decLoop, h1]
      simp only [hN _ (le_trans (le_max_right _ _) hfuel), Res.bind_ok, List.append_assoc]
    · rw [← List.append_assoc]; exact hi2
    · rw [← List.append_assoc, List.map_cons]
      refine .cons ?_ hst
      cases r with
      | none =>
        have : n.isFn = false := hr
        simp [Stands, Node.isFn_toExpr, this, decOut]
      | some i =>
        rw [Stands, Node.isFn_toExpr, hr.1]
        exact ⟨i, rfl, S.mono hr.2⟩

end Heyoka.Sym

import Verif.Expr.TraverseLemmas

/-! # Lemmas on the machines visiting the leaves, testing the nodes and counting the nodes -/

set_option linter.unusedSectionVars false

namespace Heyoka.Sym

variable {K : Type}

theorem loopUntil_done {σ : Type} {done : σ → Bool} {step : σ → Res σ} {st : σ}
    (h : done st = true) (m : Nat) : loopUntil done step m st = some (.ok st) := by
  cases m <;> simp [loopUntil, h]

/-- The new elements of the set of functions belong to functions of bounded size. -/
def FNewS (U : Node K → Prop) (N : Nat) (fset fset' : List Nat) : Prop :=
  ∀ id ∈ fset', id ∈ fset ∨ ∃ sid f args, U (.fn id sid f args) ∧ (Node.fn id sid f args).size ≤ N

/-- The new elements of the set of argument lists belong to functions of bounded size. -/
def SNewS (U : Node K → Prop) (N : Nat) (sset sset' : List Nat) : Prop :=
  ∀ k ∈ sset', k ∈ sset ∨
    ∃ id f args, U (.fn id (some k) f args) ∧ (Node.fn id (some k) f args).size ≤ N

theorem FNewS.refl {U : Node K → Prop} {N : Nat} {s : List Nat} : FNewS U N s s := fun _ h => .inl h
theorem SNewS.refl {U : Node K → Prop} {N : Nat} {s : List Nat} : SNewS U N s s := fun _ h => .inl h

theorem FNewS.trans {U : Node K → Prop} {N M L : Nat} {a b c : List Nat}
    (h : FNewS U N a b) (h' : FNewS U M b c) (hN : N ≤ L) (hM : M ≤ L) : FNewS U L a c := by
  intro id hid
  rcases h' id hid with hb | ⟨sid, f, args, hu, hs⟩
  · rcases h id hb with ha | ⟨sid, f, args, hu, hs⟩
    · exact .inl ha
    · exact .inr ⟨sid, f, args, hu, hs.trans hN⟩
  · exact .inr ⟨sid, f, args, hu, hs.trans hM⟩

theorem SNewS.trans {U : Node K → Prop} {N M L : Nat} {a b c : List Nat}
    (h : SNewS U N a b) (h' : SNewS U M b c) (hN : N ≤ L) (hM : M ≤ L) : SNewS U L a c := by
  intro id hid
  rcases h' id hid with hb | ⟨sid, f, args, hu, hs⟩
  · rcases h id hb with ha | ⟨sid, f, args, hu, hs⟩
    · exact .inl ha
    · exact .inr ⟨sid, f, args, hu, hs.trans hN⟩
  · exact .inr ⟨sid, f, args, hu, hs.trans hM⟩

theorem FNewS.cons {U : Node K → Prop} {id : Nat} {sid f args} {s : List Nat}
    (hu : U (.fn id sid f args)) : FNewS U (Node.fn id sid f args).size s (id :: s) := by
  intro i hi
  rcases List.mem_cons.1 hi with rfl | h
  · exact .inr ⟨sid, f, args, hu, le_refl _⟩
  · exact .inl h

theorem SNewS.cons {U : Node K → Prop} {id k : Nat} {f args} {s : List Nat}
    (hu : U (.fn id (some k) f args)) : SNewS U (Node.fn id (some k) f args).size s (k :: s) := by
  intro i hi
  rcases List.mem_cons.1 hi with rfl | h
  · exact .inr ⟨id, f, args, hu, le_refl _⟩
  · exact .inl h

/-- A function is not among the new elements found while visiting its arguments. -/
theorem FNewS.not_mem {U : Node K → Prop} (hU : Consistent U) {id : Nat} {sid f args}
    {s s' : List Nat} (hu : U (.fn id sid f args)) (h : FNewS U (Node.sizeL args) s s')
    (hid : id ∉ s) : id ∉ s' := by
  intro hm
  rcases h id hm with h | ⟨sid', f', args', hu', hs'⟩
  · exact hid h
  · rw [← hU.id_inj hu hu'] at hs'
    simp only [Node.size] at hs'; omega

theorem SNewS.not_mem {U : Node K → Prop} (hU : Consistent U) {id k : Nat} {f args}
    {s s' : List Nat} (hu : U (.fn id (some k) f args)) (h : SNewS U (Node.sizeL args) s s')
    (hid : k ∉ s) : k ∉ s' := by
  intro hm
  rcases h k hm with h | ⟨id', f', args', hu', hs'⟩
  · exact hid h
  · have := hU.sid_inj hu hu'
    subst this
    simp only [Node.size] at hs'; omega

/-! ### Leaves -/

/-- The visit, started in `st`, gets to `st'`. -/
def VGoes (st st' : VState K) : Prop :=
  LGoes (fun st : VState K => st.stack.isEmpty) visitStep st (.ok st')

/-- The leaves of the visited functions have been visited. -/
def VF (U : Node K → Prop) (fset : List Nat) (acc : List (Expr K)) : Prop :=
  ∀ id ∈ fset, ∀ sid f args, U (.fn id sid f args) →
    ∀ x ∈ Expr.leavesL (Node.toExprL args), x ∈ acc

/-- The leaves of the visited argument lists have been visited. -/
def VS (U : Node K → Prop) (sset : List Nat) (acc : List (Expr K)) : Prop :=
  ∀ k ∈ sset, ∀ id f args, U (.fn id (some k) f args) →
    ∀ x ∈ Expr.leavesL (Node.toExprL args), x ∈ acc

theorem VF.mono {U : Node K → Prop} {fset : List Nat} {acc acc' : List (Expr K)}
    (h : VF U fset acc) (hs : ∀ x ∈ acc, x ∈ acc') : VF U fset acc' :=
  fun id hid sid f args hu x hx => hs x (h id hid sid f args hu x hx)

theorem VS.mono {U : Node K → Prop} {sset : List Nat} {acc acc' : List (Expr K)}
    (h : VS U sset acc) (hs : ∀ x ∈ acc, x ∈ acc') : VS U sset acc' :=
  fun id hid sid f args hu x hx => hs x (h id hid sid f args hu x hx)

theorem VF.cons {U : Node K → Prop} (hU : Consistent U) {id : Nat} {sid f args}
    {fset : List Nat} {acc : List (Expr K)} (h : VF U fset acc) (hu : U (.fn id sid f args))
    (hx : ∀ x ∈ Expr.leavesL (Node.toExprL args), x ∈ acc) : VF U (id :: fset) acc := by
  intro i hi sid' f' args' hu'
  rcases List.mem_cons.1 hi with rfl | hi
  · have := hU.id_inj hu hu'
    cases this
    exact hx
  · exact h i hi sid' f' args' hu'

theorem VS.cons {U : Node K → Prop} (hU : Consistent U) {id k : Nat} {f args}
    {sset : List Nat} {acc : List (Expr K)} (h : VS U sset acc) (hu : U (.fn id (some k) f args))
    (hx : ∀ x ∈ Expr.leavesL (Node.toExprL args), x ∈ acc) : VS U (k :: sset) acc := by
  intro i hi id' f' args' hu'
  rcases List.mem_cons.1 hi with rfl | hi
  · rw [← hU.sid_inj hu hu']
    exact hx
  · exact h i hi id' f' args' hu'

/-- What processing an item of the stack does. -/
def VProc (U : Node K → Prop) (n : Node K) : Prop :=
  ∀ rest fset sset acc, VF U fset acc → VS U sset acc → ∃ fset' sset' acc',
    VGoes ⟨(n, false) :: rest, fset, sset, acc⟩ ⟨rest, fset', sset', acc'⟩ ∧
    VF U fset' acc' ∧ VS U sset' acc' ∧ FNewS U n.size fset fset' ∧ SNewS U n.size sset sset' ∧
    (∀ x, x ∈ acc' ↔ x ∈ acc ∨ x ∈ Expr.leaves n.toExpr)

theorem vprocL (U : Node K → Prop) (args : List (Node K)) (h : ∀ a ∈ args, VProc U a)
    (rest fset sset acc) (hf : VF U fset acc) (hs : VS U sset acc) : ∃ fset' sset' acc',
    VGoes ⟨args.reverse.map (·, false) ++ rest, fset, sset, acc⟩ ⟨rest, fset', sset', acc'⟩ ∧
    VF U fset' acc' ∧ VS U sset' acc' ∧ FNewS U (Node.sizeL args) fset fset' ∧
    SNewS U (Node.sizeL args) sset sset' ∧
    (∀ x, x ∈ acc' ↔ x ∈ acc ∨ x ∈ Expr.leavesL (Node.toExprL args)) := by
  induction args generalizing rest with
  | nil => exact ⟨fset, sset, acc, LGoes.refl _, hf, hs, .refl, .refl,
      by simp [Node.toExprL, Expr.leavesL]⟩
  | cons a as ih =>
    obtain ⟨fs, ss, ac, hg, hf1, hs1, hfn, hsn, hx⟩ :=
      ih (fun b hb => h b (List.mem_cons_of_mem _ hb)) ((a, false) :: rest)
    obtain ⟨fs', ss', ac', hg', hf2, hs2, hfn', hsn', hx'⟩ :=
      h a List.mem_cons_self rest fs ss ac hf1 hs1
    have hst : (a :: as).reverse.map (fun n => (n, false)) ++ rest =
        as.reverse.map (·, false) ++ (a, false) :: rest := by simp
    rw [hst]
    refine ⟨fs', ss', ac', LGoes.trans hg hg', hf2, hs2, ?_, ?_, ?_⟩
    · exact hfn.trans hfn' (by simp [Node.sizeL]) (by simp [Node.sizeL])
    · exact hsn.trans hsn' (by simp [Node.sizeL]) (by simp [Node.sizeL])
    · intro x
      rw [hx', hx]
      simp only [Node.toExprL, Expr.leavesL, List.mem_append]
      tauto

theorem vproc {U : Node K → Prop} (hU : Consistent U) :
    ∀ (N : Nat) (n : Node K), n.size ≤ N → U n → VProc U n := by
  intro N
  induction N with
  | zero =>
    intro n hn
    cases n <;> simp [Node.size] at hn
  | succ N ih =>
    intro n hn hu rest fset sset acc hf hs
    have leafcase : ∀ m : Node K, Expr.leaves m.toExpr = [m.toExpr] →
        visitStep ⟨(m, false) :: rest, fset, sset, acc⟩ =
          .ok ⟨rest, fset, sset, m.toExpr :: acc⟩ → ∃ fset' sset' acc',
        VGoes ⟨(m, false) :: rest, fset, sset, acc⟩ ⟨rest, fset', sset', acc'⟩ ∧
        VF U fset' acc' ∧ VS U sset' acc' ∧ FNewS U m.size fset fset' ∧
        SNewS U m.size sset sset' ∧ (∀ x, x ∈ acc' ↔ x ∈ acc ∨ x ∈ Expr.leaves m.toExpr) := by
      intro m hl hstep
      refine ⟨fset, sset, m.toExpr :: acc, LGoes.of_step (by simp) hstep,
        hf.mono fun x hx => List.mem_cons_of_mem _ hx,
        hs.mono fun x hx => List.mem_cons_of_mem _ hx, .refl, .refl, ?_⟩
      intro x
      rw [hl]; simp [or_comm]
    cases n with
    | num k => exact leafcase (.num k) (by simp [Node.toExpr, Expr.leaves]) rfl
    | var k => exact leafcase (.var k) (by simp [Node.toExpr, Expr.leaves]) rfl
    | par k => exact leafcase (.par k) (by simp [Node.toExpr, Expr.leaves]) rfl
    | fn id sid f args =>
      have hlv : Expr.leaves (Node.fn id sid f args).toExpr = Expr.leavesL (Node.toExprL args) := by
        simp [Node.toExpr, Expr.leaves]
      rw [hlv]
      by_cases hid : id ∈ fset
      · refine ⟨fset, sset, acc, LGoes.of_step (by simp) (by simp [visitStep, hid]), hf, hs, .refl,
          .refl, fun x => ⟨.inl, ?_⟩⟩
        rintro (h | h)
        · exact h
        · exact hf id hid sid f args hu x h
      by_cases hsd : sid.any sset.contains = true
      · obtain ⟨k, rfl, hk⟩ : ∃ k, sid = some k ∧ k ∈ sset := by
          cases sid with
          | none => simp at hsd
          | some k => exact ⟨k, rfl, by simpa using hsd⟩
        refine ⟨id :: fset, sset, acc, LGoes.of_step (by simp) (by simp [visitStep, hid, hk]),
          hf.cons hU hu (hs k hk id f args hu), hs, .cons hu, .refl, fun x => ⟨.inl, ?_⟩⟩
        rintro (h | h)
        · exact h
        · exact hs k hk id f args hu x h
      · have hstep1 : VGoes ⟨(.fn id sid f args, false) :: rest, fset, sset, acc⟩
            ⟨args.reverse.map (·, false) ++ (.fn id sid f args, true) :: rest, fset, sset, acc⟩ :=
          LGoes.of_step (by simp) (by simp only [visitStep, List.contains_iff_mem, hid, hsd]; simp)
        obtain ⟨fs, ss, ac, hg, hf1, hs1, hfn, hsn, hx⟩ := vprocL U args
          (fun a ha => ih a (by have := Node.size_le_sizeL ha; simp only [Node.size] at hn; omega)
            (hU.closed hu a ha))
          ((.fn id sid f args, true) :: rest) fset sset acc hf hs
        have hid' : id ∉ fs := hfn.not_mem hU hu hid
        have hxs : ∀ x ∈ Expr.leavesL (Node.toExprL args), x ∈ ac := fun x h => (hx x).2 (.inr h)
        have hle : Node.sizeL args ≤ (Node.fn id sid f args).size := by simp [Node.size]
        cases sid with
        | none =>
          exact ⟨id :: fs, ss, ac, (LGoes.trans hstep1 hg).trans
            (LGoes.of_step (by simp) (by simp [visitStep, hid'])), hf1.cons hU hu hxs, hs1,
            hfn.trans (.cons hu) hle (le_refl _), hsn.trans .refl hle (le_refl _), hx⟩
        | some k =>
          have hk' : k ∉ ss := hsn.not_mem hU hu (by simpa using hsd)
          exact ⟨id :: fs, k :: ss, ac, (LGoes.trans hstep1 hg).trans
            (LGoes.of_step (by simp) (by simp [visitStep, hid', hk'])), hf1.cons hU hu hxs,
            hs1.cons hU hu hxs,
            hfn.trans (.cons hu) hle (le_refl _), hsn.trans (.cons hu) hle (le_refl _), hx⟩

/-! ### Predicates -/

/-- The test, started in `st`, gets to `st'`. -/
def AGoes (p : Expr K → Bool) (st st' : AState K) : Prop :=
  LGoes (fun st : AState K => st.stack.isEmpty) (anyStep p) st (.ok st')

/-- No node in the tested functions satisfies the predicate. -/
def AF (U : Node K → Prop) (p : Expr K → Bool) (fset : List Nat) : Prop :=
  ∀ id ∈ fset, ∀ sid f args, U (.fn id sid f args) →
    Expr.anyNode p (Node.fn id sid f args).toExpr = false

/-- No node in the tested argument lists satisfies the predicate. -/
def AS (U : Node K → Prop) (p : Expr K → Bool) (sset : List Nat) : Prop :=
  ∀ k ∈ sset, ∀ id f args, U (.fn id (some k) f args) →
    Expr.anyNodeL p (Node.toExprL args) = false

theorem AF.cons {U : Node K → Prop} {p : Expr K → Bool} (hU : Consistent U) {id : Nat} {sid f args}
    {fset : List Nat} (h : AF U p fset) (hu : U (.fn id sid f args))
    (hx : Expr.anyNode p (Node.fn id sid f args).toExpr = false) : AF U p (id :: fset) := by
  intro i hi sid' f' args' hu'
  rcases List.mem_cons.1 hi with rfl | hi
  · rw [← hU.id_inj hu hu']; exact hx
  · exact h i hi sid' f' args' hu'

theorem AS.cons {U : Node K → Prop} {p : Expr K → Bool} (hU : Consistent U) {id k : Nat} {f args}
    {sset : List Nat} (h : AS U p sset) (hu : U (.fn id (some k) f args))
    (hx : Expr.anyNodeL p (Node.toExprL args) = false) : AS U p (k :: sset) := by
  intro i hi id' f' args' hu'
  rcases List.mem_cons.1 hi with rfl | hi
  · rw [← hU.sid_inj hu hu']; exact hx
  · exact h i hi id' f' args' hu'

/-- What processing an item of the stack does. -/
def AProc (U : Node K → Prop) (p : Expr K → Bool) (n : Node K) : Prop :=
  ∀ rest fset sset, AF U p fset → AS U p sset →
    (Expr.anyNode p n.toExpr = true ∧ ∃ fset' sset',
      AGoes p ⟨(n, false) :: rest, fset, sset, false⟩ ⟨[], fset', sset', true⟩) ∨
    (Expr.anyNode p n.toExpr = false ∧ ∃ fset' sset',
      AGoes p ⟨(n, false) :: rest, fset, sset, false⟩ ⟨rest, fset', sset', false⟩ ∧
      AF U p fset' ∧ AS U p sset' ∧ FNewS U n.size fset fset' ∧ SNewS U n.size sset sset')

theorem aprocL (U : Node K → Prop) (p : Expr K → Bool) (args : List (Node K))
    (h : ∀ a ∈ args, AProc U p a) (rest fset sset) (hf : AF U p fset) (hs : AS U p sset) :
    (Expr.anyNodeL p (Node.toExprL args) = true ∧ ∃ fset' sset',
      AGoes p ⟨args.reverse.map (·, false) ++ rest, fset, sset, false⟩ ⟨[], fset', sset', true⟩) ∨
    (Expr.anyNodeL p (Node.toExprL args) = false ∧ ∃ fset' sset',
      AGoes p ⟨args.reverse.map (·, false) ++ rest, fset, sset, false⟩
        ⟨rest, fset', sset', false⟩ ∧
      AF U p fset' ∧ AS U p sset' ∧ FNewS U (Node.sizeL args) fset fset' ∧
      SNewS U (Node.sizeL args) sset sset') := by
  induction args generalizing rest with
  | nil => exact .inr ⟨by simp [Node.toExprL, Expr.anyNodeL], fset, sset, LGoes.refl _, hf, hs,
      .refl, .refl⟩
  | cons a as ih =>
    have hst : (a :: as).reverse.map (fun n => (n, false)) ++ rest =
        as.reverse.map (·, false) ++ (a, false) :: rest := by simp
    rw [hst]
    simp only [Node.toExprL, Expr.anyNodeL]
    rcases ih (fun b hb => h b (List.mem_cons_of_mem _ hb)) ((a, false) :: rest) with
      ⟨ht, fs, ss, hg⟩ | ⟨ht, fs, ss, hg, hf1, hs1, hfn, hsn⟩
    · exact .inl ⟨by simp [ht], fs, ss, hg⟩
    · rcases h a List.mem_cons_self rest fs ss hf1 hs1 with
        ⟨ht', fs', ss', hg'⟩ | ⟨ht', fs', ss', hg', hf2, hs2, hfn', hsn'⟩
      · exact .inl ⟨by simp [ht'], fs', ss', LGoes.trans hg hg'⟩
      · exact .inr ⟨by simp [ht, ht'], fs', ss', LGoes.trans hg hg', hf2, hs2,
          hfn.trans hfn' (by simp [Node.sizeL]) (by simp [Node.sizeL]),
          hsn.trans hsn' (by simp [Node.sizeL]) (by simp [Node.sizeL])⟩

theorem aproc {U : Node K → Prop} (p : Expr K → Bool) (hU : Consistent U) :
    ∀ (N : Nat) (n : Node K), n.size ≤ N → U n → AProc U p n := by
  intro N
  induction N with
  | zero =>
    intro n hn
    cases n <;> simp [Node.size] at hn
  | succ N ih =>
    intro n hn hu rest fset sset hf hs
    have leafcase : ∀ m : Node K, Expr.anyNode p m.toExpr = p m.toExpr →
        anyStep p ⟨(m, false) :: rest, fset, sset, false⟩ =
          (if p m.toExpr then .ok ⟨[], fset, sset, true⟩ else .ok ⟨rest, fset, sset, false⟩) →
        (Expr.anyNode p m.toExpr = true ∧ ∃ fset' sset',
          AGoes p ⟨(m, false) :: rest, fset, sset, false⟩ ⟨[], fset', sset', true⟩) ∨
        (Expr.anyNode p m.toExpr = false ∧ ∃ fset' sset',
          AGoes p ⟨(m, false) :: rest, fset, sset, false⟩ ⟨rest, fset', sset', false⟩ ∧
          AF U p fset' ∧ AS U p sset' ∧ FNewS U m.size fset fset' ∧ SNewS U m.size sset sset') := by
      intro m hl hstep
      cases hp : p m.toExpr with
      | true =>
        exact .inl ⟨hl.trans hp, fset, sset, LGoes.of_step (by simp) (by rw [hstep, hp]; rfl)⟩
      | false =>
        exact .inr ⟨hl.trans hp, fset, sset, LGoes.of_step (by simp) (by rw [hstep, hp]; rfl), hf, hs,
          .refl, .refl⟩
    cases n with
    | num k => exact leafcase (.num k) (by simp [Node.toExpr, Expr.anyNode]) rfl
    | var k => exact leafcase (.var k) (by simp [Node.toExpr, Expr.anyNode]) rfl
    | par k => exact leafcase (.par k) (by simp [Node.toExpr, Expr.anyNode]) rfl
    | fn id sid f args =>
      have hany : Expr.anyNode p (Node.fn id sid f args).toExpr =
          (p (.fn f (Node.toExprL args)) || Expr.anyNodeL p (Node.toExprL args)) := by
        simp [Node.toExpr, Expr.anyNode]
      by_cases hid : id ∈ fset
      · exact .inr ⟨hf id hid sid f args hu, fset, sset,
          LGoes.of_step (by simp) (by simp [anyStep, hid]), hf, hs, .refl, .refl⟩
      by_cases hp : p (.fn f (Node.toExprL args)) = true
      · exact .inl ⟨by simp [hany, hp], fset, sset,
          LGoes.of_step (by simp) (by simp [anyStep, hid, hp])⟩
      simp only [Bool.not_eq_true] at hp
      by_cases hsd : sid.any sset.contains = true
      · obtain ⟨k, rfl, hk⟩ : ∃ k, sid = some k ∧ k ∈ sset := by
          cases sid with
          | none => simp at hsd
          | some k => exact ⟨k, rfl, by simpa using hsd⟩
        have hfalse : Expr.anyNode p (Node.fn id (some k) f args).toExpr = false := by
          rw [hany, hp, hs k hk id f args hu]; rfl
        exact .inr ⟨hfalse, id :: fset, sset,
          LGoes.of_step (by simp) (by simp [anyStep, hid, hk, hp]),
          hf.cons hU hu hfalse, hs, .cons hu, .refl⟩
      · have hstep1 : AGoes p ⟨(.fn id sid f args, false) :: rest, fset, sset, false⟩
            ⟨args.reverse.map (·, false) ++ (.fn id sid f args, true) :: rest, fset, sset, false⟩ :=
          LGoes.of_step (by simp)
            (by simp only [anyStep, List.contains_iff_mem, hid, hsd, hp]; simp)
        rcases aprocL U p args
          (fun a ha => ih a (by have := Node.size_le_sizeL ha; simp only [Node.size] at hn; omega)
            (hU.closed hu a ha))
          ((.fn id sid f args, true) :: rest) fset sset hf hs with
          ⟨ht, fs, ss, hg⟩ | ⟨ht, fs, ss, hg, hf1, hs1, hfn, hsn⟩
        · exact .inl ⟨by simp [hany, ht], fs, ss, LGoes.trans hstep1 hg⟩
        have hfalse : Expr.anyNode p (Node.fn id sid f args).toExpr = false := by
          rw [hany, hp, ht]; rfl
        have hid' : id ∉ fs := hfn.not_mem hU hu hid
        have hle : Node.sizeL args ≤ (Node.fn id sid f args).size := by simp [Node.size]
        refine .inr ⟨hfalse, ?_⟩
        cases sid with
        | none =>
          exact ⟨id :: fs, ss, (LGoes.trans hstep1 hg).trans
            (LGoes.of_step (by simp) (by simp [anyStep, hid'])), hf1.cons hU hu hfalse, hs1,
            hfn.trans (.cons hu) hle (le_refl _), hsn.trans .refl hle (le_refl _)⟩
        | some k =>
          have hk' : k ∉ ss := hsn.not_mem hU hu (by simpa using hsd)
          exact ⟨id :: fs, k :: ss, (LGoes.trans hstep1 hg).trans
            (LGoes.of_step (by simp) (by simp [anyStep, hid', hk'])), hf1.cons hU hu hfalse,
            hs1.cons hU hu ht,
            hfn.trans (.cons hu) hle (le_refl _), hsn.trans (.cons hu) hle (le_refl _)⟩

/-! ### Counting -/

/-- The count, started in `st`, gets to `res`. -/
def CGoes (M : Nat) (st : CState K) (res : Res (CState K)) : Prop :=
  LGoes (fun st : CState K => st.stack.isEmpty) (countStep M) st res

/-- The cached counts of the functions are right. -/
def CF (U : Node K → Prop) (fmap : List (Nat × Nat)) : Prop :=
  ∀ id c, fmap.lookup id = some c → ∀ sid f args, U (.fn id sid f args) →
    c = (Node.fn id sid f args).size

/-- The cached counts of the argument lists are right. -/
def CS (U : Node K → Prop) (smap : List (Nat × Nat)) : Prop :=
  ∀ k c, smap.lookup k = some c → ∀ id f args, U (.fn id (some k) f args) → c = Node.sizeL args

theorem CF.cons {U : Node K → Prop} (hU : Consistent U) {id : Nat} {sid f args}
    {fmap : List (Nat × Nat)} (h : CF U fmap) (hu : U (.fn id sid f args)) :
    CF U ((id, (Node.fn id sid f args).size) :: fmap) := by
  intro i y hy sid' f' args' hu'
  rcases lookup_cons_cases hy with ⟨rfl, rfl⟩ | ⟨-, hl⟩
  · rw [← hU.id_inj hu hu']
  · exact h i y hl sid' f' args' hu'

theorem CS.cons {U : Node K → Prop} (hU : Consistent U) {id k : Nat} {f args}
    {smap : List (Nat × Nat)} (h : CS U smap) (hu : U (.fn id (some k) f args)) :
    CS U ((k, Node.sizeL args) :: smap) := by
  intro i y hy id' f' args' hu'
  rcases lookup_cons_cases hy with ⟨rfl, rfl⟩ | ⟨-, hl⟩
  · rw [← hU.sid_inj hu hu']
  · exact h i y hl id' f' args' hu'

/-- The keys are kept. -/
def Keeps (a b : List (Nat × Nat)) : Prop := ∀ i, (a.lookup i).isSome → (b.lookup i).isSome

theorem Keeps.cons {i c : Nat} {a : List (Nat × Nat)} : Keeps a ((i, c) :: a) := by
  intro j hj
  rw [List.lookup_cons]
  split <;> simp_all

/-- The function, if it is one, is in the cache. -/
def InMap (fmap : List (Nat × Nat)) : Node K → Prop
  | .fn id _ _ _ => (fmap.lookup id).isSome
  | _ => True

theorem InMap.keeps {a b : List (Nat × Nat)} {n : Node K} (h : InMap a n) (hk : Keeps a b) :
    InMap b n := by
  cases n with
  | fn id sid f args => exact hk _ h
  | _ => trivial

theorem countArgs_eq {U : Node K → Prop} (M : Nat) (fmap : List (Nat × Nat)) (hf : CF U fmap)
    (args : List (Node K)) (hu : ∀ a ∈ args, U a) (hin : ∀ a ∈ args, InMap fmap a) (n : Nat)
    (hn : n ≤ M) :
    countArgs M fmap n args =
      if n + Node.sizeL args ≤ M then .ok (n + Node.sizeL args) else .throw := by
  induction args generalizing n with
  | nil => simp [countArgs, Node.sizeL, hn]
  | cons a as ih =>
    have ih' := fun m hm => ih (fun b hb => hu b (List.mem_cons_of_mem _ hb))
      (fun b hb => hin b (List.mem_cons_of_mem _ hb)) m hm
    have main : ∀ c, c = a.size →
        ((safeAdd M n c).bind fun n => countArgs M fmap n as) =
          if n + Node.sizeL (a :: as) ≤ M then .ok (n + Node.sizeL (a :: as)) else .throw := by
      rintro c rfl
      by_cases hle : n + a.size ≤ M
      · simp only [safeAdd, hle, if_true, Res.bind_ok]
        rw [ih' _ hle]
        simp only [Node.sizeL, Nat.add_assoc]
        split <;> rename_i hc <;> simp [hc]
      · simp only [safeAdd, hle, if_false, Res.bind_throw]
        rw [if_neg]
        simp only [Node.sizeL]; omega
    cases a with
    | fn id sid f args =>
      have h1 := hin _ List.mem_cons_self
      obtain ⟨c, hc⟩ := Option.isSome_iff_exists.1 (show (fmap.lookup id).isSome from h1)
      simp only [countArgs, hc]
      exact main c (hf id c hc sid f args (hu _ List.mem_cons_self))
    | _ => exact main 1 rfl

/-- What processing an item of the stack does. -/
def CProc (U : Node K → Prop) (M : Nat) (n : Node K) : Prop :=
  ∀ rest fmap smap ret, CF U fmap → CS U smap → ret ≤ M →
    (ret + n.size ≤ M ∧ ∃ fmap' smap',
      CGoes M ⟨(n, false) :: rest, fmap, smap, ret⟩ (.ok ⟨rest, fmap', smap', ret + n.size⟩) ∧
      CF U fmap' ∧ CS U smap' ∧ FNew U n.size fmap fmap' ∧ SNew U n.size smap smap' ∧
      Keeps fmap fmap' ∧ InMap fmap' n) ∨
    (M < ret + n.size ∧ CGoes M ⟨(n, false) :: rest, fmap, smap, ret⟩ .throw)

theorem cprocL (U : Node K → Prop) (M : Nat) (args : List (Node K)) (h : ∀ a ∈ args, CProc U M a)
    (rest fmap smap ret) (hf : CF U fmap) (hs : CS U smap) (hr : ret ≤ M) :
    (ret + Node.sizeL args ≤ M ∧ ∃ fmap' smap',
      CGoes M ⟨args.reverse.map (·, false) ++ rest, fmap, smap, ret⟩
        (.ok ⟨rest, fmap', smap', ret + Node.sizeL args⟩) ∧
      CF U fmap' ∧ CS U smap' ∧ FNew U (Node.sizeL args) fmap fmap' ∧
      SNew U (Node.sizeL args) smap smap' ∧ Keeps fmap fmap' ∧ ∀ a ∈ args, InMap fmap' a) ∨
    (M < ret + Node.sizeL args ∧
      CGoes M ⟨args.reverse.map (·, false) ++ rest, fmap, smap, ret⟩ .throw) := by
  induction args generalizing rest with
  | nil => exact .inl ⟨by simpa [Node.sizeL] using hr, fmap, smap, LGoes.refl _, hf, hs, .refl, .refl,
      fun _ h => h, by simp⟩
  | cons a as ih =>
    have hst : (a :: as).reverse.map (fun n => (n, false)) ++ rest =
        as.reverse.map (·, false) ++ (a, false) :: rest := by simp
    rw [hst]
    have hsz : ret + Node.sizeL (a :: as) = ret + Node.sizeL as + a.size := by
      simp only [Node.sizeL]; omega
    rw [hsz]
    rcases ih (fun b hb => h b (List.mem_cons_of_mem _ hb)) ((a, false) :: rest) with
      ⟨ht, fs, ss, hg, hf1, hs1, hfn, hsn, hk, hin⟩ | ⟨ht, hg⟩
    · rcases h a List.mem_cons_self rest fs ss _ hf1 hs1 ht with
        ⟨ht', fs', ss', hg', hf2, hs2, hfn', hsn', hk', hin'⟩ | ⟨ht', hg'⟩
      · refine .inl ⟨ht', fs', ss', LGoes.trans hg hg', hf2, hs2,
          hfn.trans hfn' (by simp [Node.sizeL]) (by simp [Node.sizeL]),
          hsn.trans hsn' (by simp [Node.sizeL]) (by simp [Node.sizeL]),
          fun i hi => hk' i (hk i hi), ?_⟩
        intro b hb
        rcases List.mem_cons.1 hb with rfl | hb
        · exact hin'
        · exact (hin b hb).keeps hk'
      · exact .inr ⟨ht', LGoes.trans hg hg'⟩
    · exact .inr ⟨by omega, hg⟩

theorem cproc {U : Node K → Prop} (M : Nat) (hU : Consistent U) :
    ∀ (N : Nat) (n : Node K), n.size ≤ N → U n → CProc U M n := by
  intro N
  induction N with
  | zero =>
    intro n hn
    cases n <;> simp [Node.size] at hn
  | succ N ih =>
    intro n hn hu rest fmap smap ret hf hs hr
    have leafcase : ∀ m : Node K, InMap fmap m →
        countStep M ⟨(m, false) :: rest, fmap, smap, ret⟩ =
          ((safeAdd M ret m.size).bind fun r => .ok ⟨rest, fmap, smap, r⟩) →
        (ret + m.size ≤ M ∧ ∃ fmap' smap',
          CGoes M ⟨(m, false) :: rest, fmap, smap, ret⟩ (.ok ⟨rest, fmap', smap', ret + m.size⟩) ∧
          CF U fmap' ∧ CS U smap' ∧ FNew U m.size fmap fmap' ∧ SNew U m.size smap smap' ∧
          Keeps fmap fmap' ∧ InMap fmap' m) ∨
        (M < ret + m.size ∧ CGoes M ⟨(m, false) :: rest, fmap, smap, ret⟩ .throw) := by
      intro m hin hstep
      by_cases hle : ret + m.size ≤ M
      · exact .inl ⟨hle, fmap, smap, LGoes.of_step (by simp) (by rw [hstep]; simp [safeAdd, hle]),
          hf, hs, .refl, .refl, fun _ h => h, hin⟩
      · exact .inr ⟨by omega, LGoes.of_step (by simp) (by rw [hstep]; simp [safeAdd, hle])⟩
    cases n with
    | num k => exact leafcase (.num k) trivial rfl
    | var k => exact leafcase (.var k) trivial rfl
    | par k => exact leafcase (.par k) trivial rfl
    | fn id sid f args =>
      have hsz : (Node.fn id sid f args).size = Node.sizeL args + 1 := rfl
      cases hfl : fmap.lookup id with
      | some c =>
        have hc := hf id c hfl sid f args hu
        exact leafcase _ (by simp [InMap, hfl]) (by simp [countStep, hfl, hc])
      | none =>
      cases hsl : sid.bind (fun k => smap.lookup k) with
      | some c =>
        obtain ⟨k, rfl, hk⟩ : ∃ k, sid = some k ∧ smap.lookup k = some c := by
          cases sid with
          | none => simp at hsl
          | some k => exact ⟨k, rfl, by simpa using hsl⟩
        obtain rfl := hs k c hk id f args hu
        have hstep : countStep M ⟨(.fn id (some k) f args, false) :: rest, fmap, smap, ret⟩ =
            (safeAdd M 1 (Node.sizeL args)).bind fun n => (safeAdd M ret n).bind fun r =>
              .ok ⟨rest, (id, n) :: fmap, smap, r⟩ := by
          simp only [countStep, hfl, hsl]
        rw [hsz]
        by_cases hle : ret + (Node.sizeL args + 1) ≤ M
        · have h1 : 1 + Node.sizeL args ≤ M := by omega
          have h2 : ret + (1 + Node.sizeL args) ≤ M := by omega
          refine .inl ⟨hle, (id, (Node.fn id (some k) f args).size) :: fmap, smap,
            LGoes.of_step (by simp) ?_, hf.cons hU hu, hs, .cons hu, .refl, .cons, ?_⟩
          · rw [hstep]
            simp only [safeAdd, h1, if_true, Res.bind_ok, h2, hsz]
            rw [show 1 + Node.sizeL args = Node.sizeL args + 1 by omega]
          · simp [InMap]
        · refine .inr ⟨by omega, LGoes.of_step (by simp) ?_⟩
          rw [hstep]
          have h2 : ¬ ret + (1 + Node.sizeL args) ≤ M := by omega
          by_cases h1 : 1 + Node.sizeL args ≤ M
          · simp [safeAdd, h1, h2]
          · simp [safeAdd, h1]
      | none =>
        have hstep1 : CGoes M ⟨(.fn id sid f args, false) :: rest, fmap, smap, ret⟩
            (.ok ⟨args.reverse.map (·, false) ++ (.fn id sid f args, true) :: rest, fmap, smap,
              ret⟩) :=
          LGoes.of_step (by simp) (by simp only [countStep, hfl, hsl])
        rcases cprocL U M args
          (fun a ha => ih a (by have := Node.size_le_sizeL ha; omega) (hU.closed hu a ha))
          ((.fn id sid f args, true) :: rest) fmap smap ret hf hs hr with
          ⟨ht, fm, sm, hg, hf1, hs1, hfn, hsn, hk, hin⟩ | ⟨ht, hg⟩
        swap
        · exact .inr ⟨by omega, LGoes.trans hstep1 hg⟩
        have hid : fm.lookup id = none := by
          by_contra hne
          rcases hfn id (Option.isSome_iff_ne_none.2 hne) with h | ⟨sid', f', args', hu', hs'⟩
          · simp [hfl] at h
          · rw [← hU.id_inj hu hu'] at hs'; omega
        have hsid : sid.bind (fun k => sm.lookup k) = none := by
          cases sid with
          | none => rfl
          | some k =>
            by_contra hne
            rcases hsn k (Option.isSome_iff_ne_none.2 hne) with h | ⟨id', f', args', hu', hs'⟩
            · simp only [Option.bind_some] at hsl; simp [hsl] at h
            · have := hU.sid_inj hu hu'
              subst this
              simp only [Node.size] at hs'; omega
        have hstep2 : countStep M ⟨(.fn id sid f args, true) :: rest, fm, sm,
            ret + Node.sizeL args⟩ = (countArgs M fm 1 args).bind fun n =>
              (safeAdd M (ret + Node.sizeL args) 1).bind fun ret =>
              .ok ⟨rest, (id, n) :: fm, addShared sid (n - 1) sm, ret⟩ := by
          simp only [countStep, hid, hsid]; simp
        have hca : 1 ≤ M → countArgs M fm 1 args = _ := countArgs_eq M fm hf1 args
          (fun a ha => hU.closed hu a ha) hin 1
        rw [hsz]
        by_cases hle : ret + (Node.sizeL args + 1) ≤ M
        · have h1 : 1 + Node.sizeL args ≤ M := by omega
          have h2 : ret + Node.sizeL args + 1 ≤ M := by omega
          rw [hca (by omega), if_pos h1] at hstep2
          simp only [safeAdd, h2, if_true, Res.bind_ok] at hstep2
          have h3 : 1 + Node.sizeL args = (Node.fn id sid f args).size := by omega
          have h4 : (Node.fn id sid f args).size - 1 = Node.sizeL args := by omega
          rw [h3, h4] at hstep2
          refine .inl ⟨hle, _, _, (LGoes.trans hstep1 hg).trans
            (LGoes.of_step (by simp) hstep2), hf1.cons hU hu, ?_, hfn.trans (.cons hu) (by omega)
              (le_refl _), ?_, fun i hi => Keeps.cons i (hk i hi), by simp [InMap]⟩
          · cases sid with
            | none => exact hs1
            | some k => exact hs1.cons hU hu
          · cases sid with
            | none => exact hsn.trans .refl (by omega) (le_refl _)
            | some k => exact hsn.trans (.cons hu) (by omega) (le_refl _)
        · refine .inr ⟨by omega, (LGoes.trans hstep1 hg).trans (LGoes.of_step (by simp) ?_)⟩
          rw [hstep2]
          have h2 : ¬ ret + Node.sizeL args + 1 ≤ M := by omega
          rcases Nat.eq_zero_or_pos M with rfl | hM
          · -- no counter can hold a single node
            have : Node.sizeL args = 0 := by omega
            cases args with
            | nil => simp [countArgs, safeAdd, h2]
            | cons a as => cases a <;> simp [Node.sizeL, Node.size] at this
          · rw [hca hM]
            by_cases h1 : 1 + Node.sizeL args ≤ M
            · simp [safeAdd, h1, h2]
            · simp [h1]

end Heyoka.Sym

import Verif.Expr.Traverse

/-! # Lemmas on the traversal machine -/

set_option linter.unusedSectionVars false

namespace Heyoka.Sym

variable {K R S : Type}

theorem Node.size_le_sizeL {a : Node K} {args : List (Node K)} (h : a ∈ args) :
    a.size ≤ Node.sizeL args := by
  induction args with
  | nil => cases h
  | cons b bs ih =>
    simp only [Node.sizeL]
    rcases List.mem_cons.1 h with rfl | h
    · omega
    · have := ih h; omega

/-- The loop, started in `st`, gets to `res`. -/
def LGoes {σ : Type} (done : σ → Bool) (step : σ → Res σ) (st : σ) : Res σ → Prop
  | .ok st' => ∃ k, ∀ m, loopUntil done step (k + m) st = loopUntil done step m st'
  | .throw => ∃ k, ∀ m, loopUntil done step (k + m) st = some .throw
  | .ub => ∃ k, ∀ m, loopUntil done step (k + m) st = some .ub

theorem LGoes.trans {σ : Type} {done : σ → Bool} {step : σ → Res σ} {st st' : σ} {res : Res σ}
    (h : LGoes done step st (.ok st')) (h' : LGoes done step st' res) : LGoes done step st res := by
  obtain ⟨k, hk⟩ := h
  cases res <;> obtain ⟨l, hl⟩ := h' <;> exact ⟨k + l, fun m => by rw [Nat.add_assoc, hk, hl]⟩

theorem LGoes.refl {σ : Type} {done : σ → Bool} {step : σ → Res σ} (st : σ) :
    LGoes done step st (.ok st) := ⟨0, fun m => by simp⟩

theorem LGoes.of_step {σ : Type} {done : σ → Bool} {step : σ → Res σ} {st : σ} {res : Res σ}
    (hne : done st = false) (h : step st = res) : LGoes done step st res := by
  cases res <;> exact ⟨1, fun m => by rw [Nat.add_comm]; simp [loopUntil, hne, h]⟩

/-- The traversal, started in `st`, gets to `res`. -/
def Trav.Goes (T : Trav K R S) (st : TState K R S) (res : Res (TState K R S)) : Prop :=
  LGoes (fun st => st.stack.isEmpty) T.step st res

theorem Trav.Goes.trans {T : Trav K R S} {st st' : TState K R S} {res : Res (TState K R S)}
    (h : T.Goes st (.ok st')) (h' : T.Goes st' res) : T.Goes st res := LGoes.trans h h'

theorem Trav.goes_refl (T : Trav K R S) (st : TState K R S) : T.Goes st (.ok st) := LGoes.refl st

theorem Trav.goes_of_step {T : Trav K R S} {st : TState K R S} {res : Res (TState K R S)}
    (hne : st.stack ≠ []) (h : T.step st = res) : T.Goes st res :=
  LGoes.of_step (by simpa using hne) h

/-- The cached results for the functions are right. -/
def Trav.FOk (T : Trav K R S) (U : Node K → Prop) (fmap : List (Nat × R)) : Prop :=
  ∀ id r, fmap.lookup id = some r → ∀ sid f args, U (.fn id sid f args) →
    T.naive (Node.fn id sid f args).toExpr = .ok r

/-- The cached results for the argument lists are right. -/
def Trav.SOk (T : Trav K R S) (U : Node K → Prop) (smap : List (Nat × S)) : Prop :=
  ∀ k s, smap.lookup k = some s → ∀ id f args, U (.fn id (some k) f args) →
    ∃ rs, T.naiveL (Node.toExprL args) = .ok rs ∧ T.comb rs = s

/-- The new keys in the function cache belong to functions of bounded size. -/
def FNew (U : Node K → Prop) (N : Nat) (fmap fmap' : List (Nat × R)) : Prop :=
  ∀ id, (fmap'.lookup id).isSome → (fmap.lookup id).isSome ∨
    ∃ sid f args, U (.fn id sid f args) ∧ (Node.fn id sid f args).size ≤ N

/-- The new keys in the argument list cache belong to functions of bounded size. -/
def SNew (U : Node K → Prop) (N : Nat) (smap smap' : List (Nat × S)) : Prop :=
  ∀ k, (smap'.lookup k).isSome → (smap.lookup k).isSome ∨
    ∃ id f args, U (.fn id (some k) f args) ∧ (Node.fn id (some k) f args).size ≤ N

theorem FNew.refl {U : Node K → Prop} {N : Nat} {fmap : List (Nat × R)} : FNew U N fmap fmap :=
  fun _ h => .inl h

theorem SNew.refl {U : Node K → Prop} {N : Nat} {smap : List (Nat × S)} : SNew U N smap smap :=
  fun _ h => .inl h

theorem FNew.trans {U : Node K → Prop} {N M L : Nat} {a b c : List (Nat × R)}
    (h : FNew U N a b) (h' : FNew U M b c) (hN : N ≤ L) (hM : M ≤ L) : FNew U L a c := by
  intro id hid
  rcases h' id hid with hb | ⟨sid, f, args, hu, hs⟩
  · rcases h id hb with ha | ⟨sid, f, args, hu, hs⟩
    · exact .inl ha
    · exact .inr ⟨sid, f, args, hu, hs.trans hN⟩
  · exact .inr ⟨sid, f, args, hu, hs.trans hM⟩

theorem SNew.trans {U : Node K → Prop} {N M L : Nat} {a b c : List (Nat × S)}
    (h : SNew U N a b) (h' : SNew U M b c) (hN : N ≤ L) (hM : M ≤ L) : SNew U L a c := by
  intro id hid
  rcases h' id hid with hb | ⟨sid, f, args, hu, hs⟩
  · rcases h id hb with ha | ⟨sid, f, args, hu, hs⟩
    · exact .inl ha
    · exact .inr ⟨sid, f, args, hu, hs.trans hN⟩
  · exact .inr ⟨sid, f, args, hu, hs.trans hM⟩

theorem lookup_cons_cases {α : Type} {a b : Nat} {x y : α} {l : List (Nat × α)}
    (h : List.lookup a ((b, x) :: l) = some y) : (a = b ∧ x = y) ∨ (a ≠ b ∧ l.lookup a = some y) := by
  rw [List.lookup_cons] at h
  by_cases hab : a = b
  · subst hab; simp at h; exact .inl ⟨rfl, h⟩
  · have : (a == b) = false := by simpa using hab
    rw [this] at h; exact .inr ⟨hab, h⟩

theorem FNew.cons {U : Node K → Prop} {id : Nat} {sid f args} {r : R} {fmap : List (Nat × R)}
    (hu : U (.fn id sid f args)) :
    FNew U (Node.fn id sid f args).size fmap ((id, r) :: fmap) := by
  intro i hi
  obtain ⟨y, hy⟩ := Option.isSome_iff_exists.1 hi
  rcases lookup_cons_cases hy with ⟨rfl, -⟩ | ⟨-, h⟩
  · exact .inr ⟨sid, f, args, hu, le_refl _⟩
  · exact .inl (by simp [h])

theorem SNew.cons {U : Node K → Prop} {id k : Nat} {f args} {s : S} {smap : List (Nat × S)}
    (hu : U (.fn id (some k) f args)) :
    SNew U (Node.fn id (some k) f args).size smap ((k, s) :: smap) := by
  intro i hi
  obtain ⟨y, hy⟩ := Option.isSome_iff_exists.1 hi
  rcases lookup_cons_cases hy with ⟨rfl, -⟩ | ⟨-, h⟩
  · exact .inr ⟨id, f, args, hu, le_refl _⟩
  · exact .inl (by simp [h])

theorem Trav.FOk.cons {T : Trav K R S} {U : Node K → Prop} (hU : Consistent U) {id : Nat}
    {sid f args} {r : R} {fmap : List (Nat × R)} (h : T.FOk U fmap) (hu : U (.fn id sid f args))
    (hr : T.naive (Node.fn id sid f args).toExpr = .ok r) : T.FOk U ((id, r) :: fmap) := by
  intro i y hy sid' f' args' hu'
  rcases lookup_cons_cases hy with ⟨rfl, rfl⟩ | ⟨-, hl⟩
  · rw [← hU.id_inj hu hu']; exact hr
  · exact h i y hl sid' f' args' hu'

theorem Trav.SOk.cons {T : Trav K R S} {U : Node K → Prop} (hU : Consistent U) {id k : Nat}
    {f args} {rs : List R} {smap : List (Nat × S)} (h : T.SOk U smap)
    (hu : U (.fn id (some k) f args)) (hr : T.naiveL (Node.toExprL args) = .ok rs) :
    T.SOk U ((k, T.comb rs) :: smap) := by
  intro i y hy id' f' args' hu'
  rcases lookup_cons_cases hy with ⟨rfl, rfl⟩ | ⟨-, hl⟩
  · rw [← hU.sid_inj hu hu']; exact ⟨rs, hr, rfl⟩
  · exact h i y hl id' f' args' hu'

theorem popArgs_append (rs : List R) (out : List (Option R)) :
    popArgs rs.length (rs.map some ++ out) = .ok (rs, out) := by
  induction rs with
  | nil => simp [popArgs]
  | cons r rs ih => simp [popArgs, ih]

/-- What processing an item of the stack does. -/
def Trav.Proc (T : Trav K R S) (U : Node K → Prop) (n : Node K) : Prop :=
  ∀ rest out fmap smap, T.FOk U fmap → T.SOk U smap →
    match T.naive n.toExpr with
    | .ok r => ∃ fmap' smap',
        T.Goes ⟨(n, false) :: rest, out, fmap, smap⟩ (.ok ⟨rest, some r :: out, fmap', smap'⟩) ∧
        T.FOk U fmap' ∧ T.SOk U smap' ∧ FNew U n.size fmap fmap' ∧ SNew U n.size smap smap'
    | .throw => T.Goes ⟨(n, false) :: rest, out, fmap, smap⟩ .throw
    | .ub => T.Goes ⟨(n, false) :: rest, out, fmap, smap⟩ .ub

theorem Trav.procL (T : Trav K R S) (U : Node K → Prop) (args : List (Node K))
    (h : ∀ a ∈ args, T.Proc U a) (rest out fmap smap) (hf : T.FOk U fmap) (hs : T.SOk U smap) :
    match T.naiveL (Node.toExprL args) with
    | .ok rs => rs.length = args.length ∧ ∃ fmap' smap',
        T.Goes ⟨args.reverse.map (·, false) ++ rest, out, fmap, smap⟩
          (.ok ⟨rest, rs.map some ++ out, fmap', smap'⟩) ∧
        T.FOk U fmap' ∧ T.SOk U smap' ∧ FNew U (Node.sizeL args) fmap fmap' ∧
        SNew U (Node.sizeL args) smap smap'
    | .throw => T.Goes ⟨args.reverse.map (·, false) ++ rest, out, fmap, smap⟩ .throw
    | .ub => T.Goes ⟨args.reverse.map (·, false) ++ rest, out, fmap, smap⟩ .ub := by
  induction args generalizing rest with
  | nil =>
    simp only [Node.toExprL, Trav.naiveL]
    exact ⟨rfl, fmap, smap, T.goes_refl _, hf, hs, .refl, .refl⟩
  | cons a as ih =>
    have h1 := ih (fun b hb => h b (List.mem_cons_of_mem _ hb)) ((a, false) :: rest)
    have hst : (a :: as).reverse.map (fun n => (n, false)) ++ rest =
        as.reverse.map (·, false) ++ (a, false) :: rest := by simp
    rw [hst]
    simp only [Node.toExprL, Trav.naiveL]
    cases hn : T.naiveL (Node.toExprL as) with
    | throw => simp only [hn] at h1; simpa [Res.bind_throw] using h1
    | ub => simp only [hn] at h1; simpa [Res.bind_ub] using h1
    | ok rs =>
      simp only [hn] at h1
      obtain ⟨hlen, fm, sm, hg, hfm, hsm, hfn, hsn⟩ := h1
      have h2 := h a List.mem_cons_self rest (rs.map some ++ out) fm sm hfm hsm
      cases hna : T.naive a.toExpr with
      | throw => simp only [hna] at h2; simpa [Res.bind_throw, Res.bind_ok] using hg.trans h2
      | ub => simp only [hna] at h2; simpa [Res.bind_ub, Res.bind_ok] using hg.trans h2
      | ok r =>
        simp only [hna] at h2
        obtain ⟨fm', sm', hg', hfm', hsm', hfn', hsn'⟩ := h2
        simp only [Res.bind_ok]
        refine ⟨by simp [hlen], fm', sm', ?_, hfm', hsm', ?_, ?_⟩
        · simpa using hg.trans hg'
        · exact hfn.trans hfn' (by simp [Node.sizeL]) (by simp [Node.sizeL])
        · exact hsn.trans hsn' (by simp [Node.sizeL]) (by simp [Node.sizeL])

theorem Trav.proc (T : Trav K R S) {U : Node K → Prop} (hU : Consistent U) :
    ∀ (N : Nat) (n : Node K), n.size ≤ N → U n → T.Proc U n := by
  intro N
  induction N with
  | zero =>
    intro n hn
    cases n <;> simp [Node.size] at hn
  | succ N ih =>
    intro n hn hu rest out fmap smap hf hs
    have leafcase : ∀ (m : Node K) (r : R), T.naive m.toExpr = .ok r →
        T.step ⟨(m, false) :: rest, out, fmap, smap⟩ =
          .ok ⟨rest, some r :: out, fmap, smap⟩ →
        match T.naive m.toExpr with
        | .ok r => ∃ fmap' smap',
            T.Goes ⟨(m, false) :: rest, out, fmap, smap⟩ (.ok ⟨rest, some r :: out, fmap', smap'⟩) ∧
            T.FOk U fmap' ∧ T.SOk U smap' ∧ FNew U m.size fmap fmap' ∧ SNew U m.size smap smap'
        | .throw => T.Goes ⟨(m, false) :: rest, out, fmap, smap⟩ .throw
        | .ub => T.Goes ⟨(m, false) :: rest, out, fmap, smap⟩ .ub := by
      intro m r hm hstep
      rw [hm]
      exact ⟨fmap, smap, Trav.goes_of_step (by simp) hstep, hf, hs, .refl, .refl⟩
    cases n with
    | num k =>
      exact leafcase (.num k) ((T.pre (.num k)).getD (T.leaf (.num k))) (by simp [Node.toExpr, Trav.naive]) rfl
    | var k =>
      exact leafcase (.var k) ((T.pre (.var k)).getD (T.leaf (.var k))) (by simp [Node.toExpr, Trav.naive]) rfl
    | par k =>
      exact leafcase (.par k) ((T.pre (.par k)).getD (T.leaf (.par k))) (by simp [Node.toExpr, Trav.naive]) rfl
    | fn id sid f args =>
      cases hfl : fmap.lookup id with
      | some r =>
        exact leafcase _ r (hf id r hfl sid f args hu) (by simp [Trav.step, hfl])
      | none =>
      cases hp : T.pre (.fn f (Node.toExprL args)) with
      | some r =>
        have hnv : T.naive (Node.fn id sid f args).toExpr = .ok r := by
          simp [Node.toExpr, Trav.naive, hp]
        rw [hnv]
        refine ⟨(id, r) :: fmap, smap, Trav.goes_of_step (by simp) (by simp [Trav.step, hfl, hp]),
          hf.cons hU hu hnv, hs, .cons hu, .refl⟩
      | none =>
      have hnv : T.naive (Node.fn id sid f args).toExpr =
          (T.naiveL (Node.toExprL args)).bind fun rs => T.fin f (Node.toExprL args) (T.comb rs) := by
        simp [Node.toExpr, Trav.naive, hp]
      cases hsl : sid.bind (fun k => smap.lookup k) with
      | some s =>
        obtain ⟨k, rfl, hk⟩ : ∃ k, sid = some k ∧ smap.lookup k = some s := by
          cases sid with
          | none => simp at hsl
          | some k => exact ⟨k, rfl, by simpa using hsl⟩
        obtain ⟨rs, hrs, rfl⟩ := hs k s hk id f args hu
        rw [hrs, Res.bind_ok] at hnv
        have hstep : T.step ⟨(.fn id (some k) f args, false) :: rest, out, fmap, smap⟩ =
            (T.fin f (Node.toExprL args) (T.comb rs)).bind fun r =>
              .ok ⟨rest, some r :: out, (id, r) :: fmap, smap⟩ := by
          simp only [Trav.step, hfl, hp, hsl]
        rw [hnv]
        cases hfin : T.fin f (Node.toExprL args) (T.comb rs) with
        | throw => exact Trav.goes_of_step (by simp) (by rw [hstep, hfin]; rfl)
        | ub => exact Trav.goes_of_step (by simp) (by rw [hstep, hfin]; rfl)
        | ok r =>
          refine ⟨(id, r) :: fmap, smap, Trav.goes_of_step (by simp) (by rw [hstep, hfin]; rfl),
            hf.cons hU hu (hnv.trans hfin), hs, .cons hu, .refl⟩
      | none =>
        have hsz : (Node.fn id sid f args).size = Node.sizeL args + 1 := rfl
        have hstep1 : T.Goes ⟨(.fn id sid f args, false) :: rest, out, fmap, smap⟩
            (.ok ⟨args.reverse.map (·, false) ++ (.fn id sid f args, true) :: rest,
              none :: out, fmap, smap⟩) :=
          Trav.goes_of_step (by simp) (by simp only [Trav.step, hfl, hp, hsl])
        have hargs := T.procL U args
          (fun a ha => ih a (by have := Node.size_le_sizeL ha; omega) (hU.closed hu a ha))
          ((.fn id sid f args, true) :: rest) (none :: out) fmap smap hf hs
        rw [hnv]
        cases hnl : T.naiveL (Node.toExprL args) with
        | throw => simp only [hnl] at hargs; exact hstep1.trans hargs
        | ub => simp only [hnl] at hargs; exact hstep1.trans hargs
        | ok rs =>
          simp only [hnl] at hargs
          obtain ⟨hlen, fm, sm, hg, hfm, hsm, hfn, hsn⟩ := hargs
          rw [hnl] at hnv
          simp only [Res.bind_ok] at hnv ⊢
          have hid : fm.lookup id = none := by
            by_contra hne
            rcases hfn id (Option.isSome_iff_ne_none.2 hne) with h | ⟨sid', f', args', hu', hs'⟩
            · simp [hfl] at h
            · rw [← hU.id_inj hu hu'] at hs'; omega
          have hsid : sid.bind (fun k => sm.lookup k) = none := by
            cases sid with
            | none => rfl
            | some k =>
              by_contra hne
              rcases hsn k (Option.isSome_iff_ne_none.2 hne) with h | ⟨id', f', args', hu', hs'⟩
              · simp only [Option.bind_some] at hsl; simp [hsl] at h
              · have := hU.sid_inj hu hu'
                subst this
                simp only [Node.size] at hs'; omega
          have hpop : popArgs args.length (rs.map some ++ none :: out) = .ok (rs, none :: out) := by
            rw [← hlen]; exact popArgs_append _ _
          have hg1 := hstep1.trans hg
          cases hfin : T.fin f (Node.toExprL args) (T.comb rs) with
          | throw =>
            exact hg1.trans (Trav.goes_of_step (by simp) (by simp [Trav.step, hid, hpop, hfin]))
          | ub =>
            exact hg1.trans (Trav.goes_of_step (by simp) (by simp [Trav.step, hid, hpop, hfin]))
          | ok r =>
            by_cases hc : (T.cacheLast || !rest.isEmpty) = true
            · cases sid with
              | none =>
                refine ⟨(id, r) :: fm, sm, hg1.trans (Trav.goes_of_step (by simp) ?_),
                  hfm.cons hU hu (hnv.trans hfin), hsm, ?_, ?_⟩
                · simp only [Trav.step, hid, hpop, hfin, hsid, hc, Res.bind_ok, addShared]; simp
                · exact hfn.trans (.cons hu) (by omega) (le_refl _)
                · exact hsn.trans .refl (by omega) (le_refl _)
              | some k =>
                refine ⟨(id, r) :: fm, (k, T.comb rs) :: sm,
                  hg1.trans (Trav.goes_of_step (by simp) ?_),
                  hfm.cons hU hu (hnv.trans hfin), hsm.cons hU hu hnl, ?_, ?_⟩
                · simp only [Trav.step, hid, hpop, hfin, hsid, hc, Res.bind_ok, addShared]; simp
                · exact hfn.trans (.cons hu) (by omega) (le_refl _)
                · exact hsn.trans (.cons hu) (by omega) (le_refl _)
            · refine ⟨fm, sm, hg1.trans (Trav.goes_of_step (by simp) ?_), hfm, hsm, ?_, ?_⟩
              · simp only [Trav.step, hid, hpop, hfin, hsid, hc, Res.bind_ok, addShared]; simp
              · exact hfn.trans .refl (by omega) (le_refl _)
              · exact hsn.trans .refl (by omega) (le_refl _)

end Heyoka.Sym

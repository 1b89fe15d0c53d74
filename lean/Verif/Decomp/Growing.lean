import Verif.Decomp.Passes
import Verif.Expr.TravInst
import Verif.Expr.TraverseLemmas2

/-!
# Renaming with caches kept while the map grows

`function_decompose_cse()` and `taylor_decompose_cse()` rename the elements one after the other with
the same caches, adding an entry to the map after each of them.
-/

set_option linter.unusedSectionVars false

namespace Heyoka.Sym

variable {K : Type}

/-- The renamings of a sequence of expressions with the same caches but different maps
(`src/expression_cfunc.cpp` 236-281, `rename_variables_impl()` in `src/expression_basic.cpp` 336-352). -/
def renameSeq (fuel : Nat) : List (Nat × Expr K) → List (Nat × List (Expr K)) →
    List ((String → Option String) × Node K) → Option (Res (List (Expr K)))
  | _, _, [] => some (.ok [])
  | fmap, smap, (σ, n) :: l =>
    match (transformNodes (renameLeaf σ) id).run fuel fmap smap n with
    | none => none
    | some .throw => some .throw
    | some .ub => some .ub
    | some (.ok (e, fmap', smap')) =>
      match renameSeq fuel fmap' smap' l with
      | none => none
      | some rs => some (rs.bind fun rs => .ok (e :: rs))

theorem rename_congr {σ σ' : String → Option String} (e : Expr K)
    (h : ∀ s, .var s ∈ e.leaves → σ s = σ' s) :
    e.mapNodes (renameLeaf σ) id = e.mapNodes (renameLeaf σ') id := by
  induction e using Expr.ind with
  | num n => rfl
  | par n => rfl
  | var s => simp only [Expr.mapNodes, renameLeaf]; rw [h s (by simp [Expr.leaves])]
  | fn f args ih =>
    rw [rename_fn, rename_fn]
    congr 1
    refine List.map_congr_left fun a ha => ih a ha fun s hs => h s ?_
    rw [Expr.leaves, mem_leavesL]
    exact ⟨a, ha, hs⟩

theorem transformNodes_naiveL (leaf branch : Expr K → Expr K) (es : List (Expr K)) :
    (transformNodes leaf branch).naiveL es = .ok (es.map fun e => e.mapNodes leaf branch) :=
  Trav.naiveL_congr fun e _ => transformNodes_naive leaf branch e

/-- The nodes on whose variables all the remaining maps agree. -/
def Agree (U : Node K → Prop) (l : List ((String → Option String) × Node K)) (n : Node K) : Prop :=
  U n ∧ ∀ p ∈ l, ∀ q ∈ l, ∀ s, .var s ∈ n.toExpr.leaves → p.1 s = q.1 s

theorem agree_consistent {U : Node K → Prop} (hU : Consistent U)
    (l : List ((String → Option String) × Node K)) : Consistent (Agree U l) where
  closed := fun {id sid f args} h a ha => ⟨hU.closed h.1 a ha, fun p hp q hq s hs => h.2 p hp q hq s (by
    rw [Node.toExpr, Expr.leaves, mem_leavesL, Node.toExprL_eq_map]
    exact ⟨_, List.mem_map_of_mem ha, hs⟩)⟩
  id_inj := fun h h' => hU.id_inj h.1 h'.1
  sid_inj := fun h h' => hU.sid_inj h.1 h'.1

/-- The caches are right for all the remaining maps. -/
def CachesOk (U : Node K → Prop) (l : List ((String → Option String) × Node K))
    (fmap : List (Nat × Expr K)) (smap : List (Nat × List (Expr K))) : Prop :=
  (∀ id y, fmap.lookup id = some y → ∃ sid f args, Agree U l (.fn id sid f args) ∧
    ∀ p ∈ l, (Node.fn id sid f args).toExpr.mapNodes (renameLeaf p.1) id_ = y) ∧
  ∀ k ys, smap.lookup k = some ys → ∃ id f args, Agree U l (.fn id (some k) f args) ∧
    ∀ p ∈ l, (Node.toExprL args).map (fun e => e.mapNodes (renameLeaf p.1) id_) = ys
where id_ : Expr K → Expr K := id

theorem renameSeq_eq {U : Node K → Prop} (hU : Consistent U)
    (l : List ((String → Option String) × Node K)) : (∀ p ∈ l, U p.2) →
    l.Pairwise (fun p q => ∀ s, .var s ∈ p.2.toExpr.leaves → p.1 s = q.1 s) →
    ∀ fmap smap, CachesOk U l fmap smap →
    ∃ N, ∀ fuel, N ≤ fuel → renameSeq fuel fmap smap l =
      some (.ok (l.map fun p => p.2.toExpr.mapNodes (renameLeaf p.1) id)) := by
  induction l with
  | nil => intro _ _ fmap smap _; exact ⟨0, fun _ _ => rfl⟩
  | cons p l ih =>
    intro hl hp fmap smap hc
    obtain ⟨σ, n⟩ := p
    rw [List.pairwise_cons] at hp
    have hA := agree_consistent hU ((σ, n) :: l)
    have hn : Agree U ((σ, n) :: l) n := by
      refine ⟨hl _ List.mem_cons_self, ?_⟩
      have h1 : ∀ p ∈ (σ, n) :: l, ∀ s, .var s ∈ n.toExpr.leaves → σ s = p.1 s := by
        intro p hpm s hs
        rcases List.mem_cons.1 hpm with rfl | hpm
        · rfl
        · exact hp.1 p hpm s hs
      intro p hp q hq s hs
      rw [← h1 p hp s hs, h1 q hq s hs]
    have hf : (transformNodes (K := K) (renameLeaf σ) id).FOk (Agree U ((σ, n) :: l)) fmap := by
      intro id y hy sid f args hu
      obtain ⟨sid', f', args', hu', hy'⟩ := hc.1 id y hy
      rw [hA.id_inj hu hu', transformNodes_naive]
      exact congrArg _ (hy' (σ, n) List.mem_cons_self)
    have hs : (transformNodes (K := K) (renameLeaf σ) id).SOk (Agree U ((σ, n) :: l)) smap := by
      intro k ys hy id f args hu
      obtain ⟨id', f', args', hu', hy'⟩ := hc.2 k ys hy
      rw [hA.sid_inj hu hu']
      exact ⟨_, transformNodes_naiveL _ _ _, hy' (σ, n) List.mem_cons_self⟩
    have hproc := (transformNodes (K := K) (renameLeaf σ) id).proc hA n.size n (le_refl _) hn [] [] fmap smap hf hs
    rw [transformNodes_naive] at hproc
    obtain ⟨fmap', smap', ⟨k, hk⟩, hf', hs', hfn, hsn⟩ := hproc
    have hmono : ∀ m, Agree U ((σ, n) :: l) m → Agree U l m := fun m hm =>
      ⟨hm.1, fun p hp q hq => hm.2 p (List.mem_cons_of_mem _ hp) q (List.mem_cons_of_mem _ hq)⟩
    have hc' : CachesOk U l fmap' smap' := by
      constructor
      · intro id y hy
        have hkey : ∃ sid f args, Agree U ((σ, n) :: l) (.fn id sid f args) := by
          rcases hfn id (by rw [hy]; rfl) with h1 | ⟨sid, f, args, h1, -⟩
          · obtain ⟨y', hy'⟩ := Option.isSome_iff_exists.1 h1
            obtain ⟨sid, f, args, h2, -⟩ := hc.1 id y' hy'
            exact ⟨sid, f, args, h2⟩
          · exact ⟨sid, f, args, h1⟩
        obtain ⟨sid, f, args, hu⟩ := hkey
        refine ⟨sid, f, args, hmono _ hu, fun p hp => ?_⟩
        have h1 := hf' id y hy sid f args hu
        rw [transformNodes_naive] at h1
        rw [← Res.ok.inj h1]
        exact rename_congr _ fun s hs => hu.2 p (List.mem_cons_of_mem _ hp) (σ, n) List.mem_cons_self s hs
      · intro k ys hy
        have hkey : ∃ id f args, Agree U ((σ, n) :: l) (.fn id (some k) f args) := by
          rcases hsn k (by rw [hy]; rfl) with h1 | ⟨id, f, args, h1, -⟩
          · obtain ⟨y', hy'⟩ := Option.isSome_iff_exists.1 h1
            obtain ⟨id, f, args, h2, -⟩ := hc.2 k y' hy'
            exact ⟨id, f, args, h2⟩
          · exact ⟨id, f, args, h1⟩
        obtain ⟨id, f, args, hu⟩ := hkey
        refine ⟨id, f, args, hmono _ hu, fun p hp => ?_⟩
        obtain ⟨rs, h1, h2⟩ := hs' k ys hy id f args hu
        rw [transformNodes_naiveL] at h1
        rw [← h2, ← Res.ok.inj h1]
        refine List.map_congr_left fun e he => ?_
        refine rename_congr _ fun s hs => hu.2 p (List.mem_cons_of_mem _ hp) (σ, n) List.mem_cons_self s ?_
        rw [Node.toExpr, Expr.leaves, mem_leavesL]
        exact ⟨e, he, hs⟩
    obtain ⟨N, hN⟩ := ih (fun p hp => hl p (List.mem_cons_of_mem _ hp)) hp.2 fmap' smap' hc'
    refine ⟨max k N, fun fuel hfuel => ?_⟩
    obtain ⟨m, rfl⟩ := Nat.exists_eq_add_of_le (le_trans (le_max_left _ _) hfuel)
    have h1 := (hk m).trans (loopUntil_done (by simp) m)
    have h2 : (transformNodes (K := K) (renameLeaf σ) id).run (k + m) fmap smap n =
        some (.ok (n.toExpr.mapNodes (renameLeaf σ) id, fmap', smap')) := by
      rw [Trav.run, Trav.loop, h1]
      rfl
    rw [renameSeq, h2]
    simp only [hN _ (le_trans (le_max_right _ _) hfuel), Res.bind_ok, List.map_cons]

end Heyoka.Sym

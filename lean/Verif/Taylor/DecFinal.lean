import Verif.Taylor.DecFun
import Verif.Taylor.DecReg
import Verif.Taylor.JetLemmas
import Verif.Props.Decompose

/-!
# From the equations to the jet of derivatives
-/

set_option linter.unusedSectionVars false

open Filter Topology

namespace Heyoka.Taylor

open Heyoka.Sym

variable [FmtName ℝ] {P : Fn ℝ → Prop} {par : ℕ → ℝ} {t t0 : ℝ}

/-- The variables along the curves `x`, the parameters and the time. -/
def curveEnv (x : String → ℝ → ℝ) (par : ℕ → ℝ) (t : ℝ) : Env ℝ := ⟨fun s => x s t, par, t⟩

/-- The curves by index. -/
def idxCurve (names : List String) (x : String → ℝ → ℝ) (j : ℕ) : ℝ → ℝ := x (names.getD j "")

section
variable {names : List String} {x : String → ℝ → ℝ}

theorem eval_renamed (hnd : names.Nodup) {e : Expr ℝ} (hg : e.Good P (· ∈ names) fun _ => True) (t : ℝ) :
    (renameIn (renMap names) e).eval (envF par (idxCurve names x) t) = e.eval (curveEnv x par t) := by
  refine eval_rename (v := curveEnv x par t) (v' := envF par (idxCurve names x) t) rfl rfl (fun s hs => ?_) hg
  obtain ⟨j, hj⟩ := List.mem_iff_getElem?.1 hs
  rw [renMap_lookup hnd hj]
  simp [envF, idxCurve, curveEnv, List.getD_eq_getElem?_getD, hj]

theorem leaf_renamed (hnd : names.Nodup) {e : Expr ℝ} (hg : e.Good P (· ∈ names) fun _ => True) {s : String}
    (h : renameIn (renMap names) e = .var s) : ∃ j, j < names.length ∧ s = uname j := by
  cases e with
  | var s0 =>
    have hs : s0 ∈ names := hg
    obtain ⟨j, hj⟩ := List.mem_iff_getElem?.1 hs
    rw [renameIn, Expr.mapNodes, renameLeaf_var, renMap_lookup hnd hj] at h
    injection h with h
    exact ⟨j, (List.getElem?_eq_some_iff.1 hj).1, h.symm⟩
  | fn f as => rw [renameIn, rename_fn] at h; cases h
  | num n => simp [renameIn, Expr.mapNodes, renameLeaf] at h
  | par n => simp [renameIn, Expr.mapNodes, renameLeaf] at h

/-- The functions of a regular expression, in terms of the `u` variables. -/
theorem renamed_good (hnd : names.Nodup) {e : Expr ℝ} (hg : e.Good P (· ∈ names) fun _ => True)
    (hr : TG (Shp true true) (curveEnv x par) t0 e) :
    (renameIn (renMap names) e).AllFns (NodeGood P par names.length (idxCurve names x) t0) := by
  induction e using Expr.ind with
  | num n => simp [renameIn, Expr.mapNodes, renameLeaf, Expr.AllFns]
  | par n => simp [renameIn, Expr.mapNodes, renameLeaf, Expr.AllFns]
  | var s => rw [renameIn, Expr.mapNodes, renameLeaf_var]; trivial
  | fn f args ih =>
    have hga := (Expr.good_fn.1 hg).2
    rw [renameIn, rename_fn]
    have hn := hr.node.map (E' := envF par (idxCurve names x)) (g := renameIn (renMap names)) (fun m => rfl)
      (fun m => rfl) (fun t => rfl) (.of_forall fun t a ha => eval_renamed hnd (hga a ha) t)
    refine ⟨⟨(Expr.good_fn.1 hg).1, ?_, hn.shape.shapeOk, hn.defined, hn.reg⟩, Expr.allFnsL_iff.2 fun a ha => ?_⟩
    · intro s hs
      obtain ⟨b, hb, hbs⟩ := List.mem_map.1 hs
      exact leaf_renamed hnd (hga b hb) hbs
    · obtain ⟨b, hb, rfl⟩ := List.mem_map.1 ha
      exact ih b hb (hga b hb) (hr.args b hb)

end

/-! ### The construction -/

theorem allFns_consistent {U : Sym.Node ℝ → Prop} (hU : Consistent U) (Q : Fn ℝ → List (Expr ℝ) → Prop) :
    Consistent fun n => U n ∧ n.toExpr.AllFns Q where
  closed := fun {id sid f args} h a ha => ⟨hU.closed h.1 a ha, by
    have := h.2
    rw [Node.toExpr, Node.toExprL_eq_map] at this
    exact Expr.allFnsL_iff.1 this.2 _ (List.mem_map_of_mem ha)⟩
  id_inj := fun h h' => hU.id_inj h.1 h'.1
  sid_inj := fun h h' => hU.sid_inj h.1 h'.1

/-- What is assumed of the equations and of the extra functions: the variables are state variables, the functions
are in `P`, and the expressions are regular along the curves. -/
structure SysReg (P : Fn ℝ → Prop) (names : List String) (x : String → ℝ → ℝ) (par : ℕ → ℝ) (t0 : ℝ) (e : Expr ℝ) :
    Prop where
  good : e.Good P (· ∈ names) fun _ => True
  reg : TG (Shp false false) (curveEnv x par) t0 e

theorem decSys_ok {names : List String} {x : String → ℝ → ℝ} (hneq : names ≠ []) (hnd : names.Nodup)
    (hC : HidClosed P) (hR : RewClosed P) {share : List (Expr ℝ) → List (Sym.Node ℝ)} {es : List (Expr ℝ)}
    (hes : ∀ e ∈ es, SysReg P names x par t0 e)
    (hsh : Represents (share (sysExprs names es)) (sysExprs names es)) :
    ∃ N dc outs, (∀ fuel, N ≤ fuel → decSys fuel share names es = some (.ok (dc, outs))) ∧
      TInv P par names.length (idxCurve names x) t0 dc ∧ outs.length = es.length ∧
      (∀ a ∈ outs, ArgOk dc.length a) ∧
      List.Forall₂ (fun a e => ((rewritesTaylor e).isNum = false → (∀ i, rewritesTaylor e ≠ .par i) →
        ∃ j, a = .var (uname j) ∧ j < dc.length) ∧
        ((rewritesTaylor e).isNum = true ∨ (∃ i, rewritesTaylor e = .par i) → a = rewritesTaylor e)) outs es ∧
      ∀ F, Fits par names.length (idxCurve names x) F dc →
        ∀ᶠ t in 𝓝 t0, outs.map (fun a => a.eval (envF par F t)) = es.map fun e => some (av (curveEnv x par) e t) := by
  have hneq' : 0 < names.length := List.length_pos_iff.2 hneq
  have hrg : ∀ e ∈ es, (rewritesTaylor e).Good P (· ∈ names) fun _ => True :=
    fun e he => rewritesTaylor_good hR (hes e he).good
  have hrr : ∀ e ∈ es, TG (Shp true true) (curveEnv x par) t0 (rewritesTaylor e) ∧ _ :=
    fun e he => rewritesTaylor_reg (hes e he).reg
  obtain ⟨h, roots, hv, hroots, hshare, hes'⟩ := hsh
  have hmem : ∀ n ∈ roots.map h.unfold, n.toExpr ∈ sysExprs names es := fun n hn => by
    rw [← hes', hshare]; exact List.mem_map_of_mem hn
  have hinv : TInv P par names.length (idxCurve names x) t0 (names.map fun s => ((.var s, []) : TElem ℝ)) := by
    have hnone : ∀ (i : ℕ) (e : TElem ℝ), names.length ≤ i →
        (names.map fun s => ((.var s, []) : TElem ℝ))[i]? = some e → False := by
      intro i e hi he
      rw [List.getElem?_eq_none (by simpa using hi)] at he
      cases he
    refine ⟨by simp, fun i e hi he => ?_, fun i e hi he => (hnone i e hi he).elim,
      fun F _ i e hi he => (hnone i e hi he).elim⟩
    rw [List.getElem?_map, Option.map_eq_some_iff] at he
    obtain ⟨s, -, rfl⟩ := he
    rfl
  obtain ⟨N, d, outs, h1, h2, h3⟩ := (taylorSpec hneq' hC par (idxCurve names x) t0).decAll_eq
    (allFns_consistent (Heap.consistent hv) (NodeGood P par names.length (idxCurve names x) t0))
    (fun id sid f args hu => by
      have := hu.2
      rw [Node.toExpr] at this
      exact this.1)
    (roots.map h.unfold) (fun n hn => by
      refine ⟨?_, ?_⟩
      · obtain ⟨r, hr, rfl⟩ := List.mem_map.1 hn
        exact ⟨r, hroots r hr, rfl⟩
      · obtain ⟨e, he, hee⟩ := List.mem_map.1 (hmem n hn)
        rw [← hee]
        exact renamed_good hnd (hrg e he) (hrr e he).1)
    [] [] (names.map fun s => (.var s, [])) hinv (by intro id r h; simp at h) (by intro k s h; simp at h)
  rw [← hshare, hes'] at h3
  have hleaves : LeavesOk names.length (sysExprs names es) := fun s hs => by
    obtain ⟨e, he, hee⟩ := List.mem_map.1 hs
    exact leaf_renamed hnd (hrg e he) hee
  refine ⟨N, _, outs, fun fuel hf => ?_, h2, ?_, tstands_argOk h2.len h3 hleaves, ?_, fun F hF => ?_⟩
  · rw [decSys, hshare]; exact h1 fuel hf
  · rw [h3.length_eq]; simp [sysExprs]
  · have h4 := tstands_argOk h2.len h3 hleaves
    rw [sysExprs, List.forall₂_map_right_iff] at h3
    have h5 : List.Forall₂ (fun a e => ArgOk (List.map (fun s => ((.var s, []) : TElem ℝ)) names ++ d).length a ∧
        Stands (TDef par names.length (idxCurve names x) t0)
          (List.map (fun s => ((.var s, []) : TElem ℝ)) names ++ d) a
          (renameIn (renMap names) (rewritesTaylor e))) outs es := (List.forall₂_and_left ..).2 ⟨h4, h3⟩
    refine h5.imp fun a e hae => ?_
    obtain ⟨ha, hst⟩ := hae
    refine ⟨fun hn hp => ?_, fun hnp => ?_⟩
    swap
    · rcases hnp with hnp | ⟨i, hnp⟩
      · obtain ⟨m, hm⟩ := Expr.isNum_iff.1 hnp
        rw [hm] at hst ⊢
        simpa [Stands, renameIn, Expr.mapNodes, renameLeaf, Expr.isFn] using hst
      · rw [hnp] at hst ⊢
        simpa [Stands, renameIn, Expr.mapNodes, renameLeaf, Expr.isFn] using hst
    have hvar : ∃ s, a = .var s := by
      unfold Stands at hst
      split at hst
      · obtain ⟨i, rfl, -⟩ := hst
        exact ⟨_, rfl⟩
      · rename_i hf
        subst hst
        generalize rewritesTaylor e = e' at hn hp hf
        cases e' with
        | num m => simp [Expr.isNum] at hn
        | par m => exact absurd rfl (hp m)
        | var s => exact ⟨_, by rw [renameIn, Expr.mapNodes, renameLeaf_var]⟩
        | fn f as => rw [renameIn, rename_fn] at hf; simp [Expr.isFn] at hf
    obtain ⟨s, rfl⟩ := hvar
    obtain ⟨j, hj, rfl⟩ := ha
    exact ⟨j, rfl, hj⟩
  · filter_upwards [tstands_eval h2.len h3 hleaves hF, eventually_list fun e he => (hrr e he).2,
      eventually_list fun e he => (hes e he).reg.defd] with t e1 e2 e3
    rw [e1, sysExprs, List.map_map]
    refine List.map_congr_left fun e he => ?_
    rw [Function.comp, eval_renamed hnd (hrg e he), e2 e he]
    obtain ⟨y, hy⟩ := e3 e he
    rw [av, hy]
    rfl

theorem svfIndices_ok {F : ℕ → ℝ → ℝ} {n : ℕ} (hn : n ≤ 2 ^ 32) {outs : List (Expr ℝ)} {G : List (ℝ → ℝ)}
    (h : List.Forall₂ (fun a g => (∃ j, a = .var (uname j) ∧ j < n) ∧
      ∀ᶠ t in 𝓝 t0, a.eval (envF par F t) = some (g t)) outs G) :
    ∃ is, svfIndices outs = .ok is ∧ List.Forall₂ (fun u g => u < n ∧ F u =ᶠ[𝓝 t0] g) is G := by
  induction h with
  | nil => exact ⟨[], rfl, .nil⟩
  | cons h1 _ ih =>
    obtain ⟨is, h2, h3⟩ := ih
    obtain ⟨⟨j, rfl, hj⟩, hev⟩ := h1
    refine ⟨j :: is, ?_, .cons ⟨hj, ?_⟩ h3⟩
    · rw [svfIndices, unameToIndex_uname, if_pos (by omega), Res.bind_ok, h2]
      rfl
    · filter_upwards [hev] with t ht
      simpa [envF] using ht

theorem svfIndices_throw {n : ℕ} {outs : List (Expr ℝ)} (h : ∀ a ∈ outs, ArgOk n a)
    (he : ∃ a ∈ outs, a.isNum = true ∨ ∃ i, a = .par i) : svfIndices outs = .throw := by
  induction outs with
  | nil => obtain ⟨a, ha, -⟩ := he; cases ha
  | cons b outs ih =>
    have hb := h b List.mem_cons_self
    cases b with
    | num m => rfl
    | par i => rfl
    | fn f as => exact absurd hb (by simp [ArgOk])
    | var s =>
      obtain ⟨j, -, rfl⟩ := hb
      rw [svfIndices, unameToIndex_uname]
      split_ifs
      · rw [Res.bind_ok, ih (fun a ha => h a (List.mem_cons_of_mem _ ha))]
        · rfl
        · obtain ⟨a, ha, he⟩ := he
          rcases List.mem_cons.1 ha with rfl | ha
          · rcases he with he | ⟨i, he⟩
            · simp [Expr.isNum] at he
            · cases he
          · exact ⟨a, ha, he⟩
      · rfl

/-- The right-hand sides along the curves, by index. -/
noncomputable def rhsCurve (E : ℝ → Env ℝ) (rhs : List (Expr ℝ)) (i : ℕ) : ℝ → ℝ :=
  (rhs[i]?.map (av E)).getD fun _ => 0

theorem rawSys_ok {names : List String} {x : String → ℝ → ℝ} (hneq : names ≠ []) (hnd : names.Nodup)
    (hC : HidClosed P) (hR : RewClosed P) {share : List (Expr ℝ) → List (Sym.Node ℝ)} {rhs svf : List (Expr ℝ)}
    (hlen : rhs.length = names.length) (hes : ∀ e ∈ rhs ++ svf, SysReg P names x par t0 e)
    (hsvf : ∀ e ∈ svf, (rewritesTaylor e).isNum = false ∧ ∀ i, rewritesTaylor e ≠ .par i)
    (hsh : Represents (share (sysExprs names (rhs ++ svf))) (sysExprs names (rhs ++ svf))) :
    ∃ N dc outs, (∀ fuel, N ≤ fuel → decSys fuel share names (rhs ++ svf) = some (.ok (dc, outs))) ∧
      (dc.length + names.length ≤ 2 ^ 32 → ∃ dc' is F,
        (∀ fuel, N ≤ fuel → rawSys fuel share names rhs svf = some (.ok (dc', is))) ∧
        dc'.length ≤ 2 ^ 32 ∧
        TSysOk P F t0 par names.length (idxCurve names x) (rhsCurve (curveEnv x par) rhs)
          (svf.map (av (curveEnv x par))) dc' is) := by
  obtain ⟨N, dc, outs, h1, h2, h3, h4, h5, h6⟩ := decSys_ok hneq hnd hC hR hes hsh
  refine ⟨N, dc, outs, h1, fun hb => ?_⟩
  obtain ⟨F, hF⟩ := exists_fits par names.length (idxCurve names x) dc h2.shape
  have hol : outs.length = rhs.length + svf.length := by rw [h3, List.length_append]
  have hot : (outs.take rhs.length).length = names.length := by rw [List.length_take]; omega
  have hev : ∀ (i : ℕ) (a e : Expr ℝ), outs[i]? = some a → (rhs ++ svf)[i]? = some e →
      ∀ᶠ t in 𝓝 t0, a.eval (envF par F t) = some (av (curveEnv x par) e t) := by
    intro i a e ha he
    filter_upwards [h6 F hF] with t ht
    have h7 := congrArg (fun l => l[i]?) ht
    simp only [List.getElem?_map, ha, he, Option.map_some, Option.some.injEq] at h7
    exact h7
  have hF2 : List.Forall₂ (fun a g => (∃ j, a = .var (uname j) ∧ j < dc.length) ∧
      ∀ᶠ t in 𝓝 t0, a.eval (envF par F t) = some (g t)) (outs.drop rhs.length) (svf.map (av (curveEnv x par))) := by
    rw [List.forall₂_map_right_iff, List.forall₂_iff_get]
    refine ⟨by rw [List.length_drop]; omega, fun i hi hi' => ?_⟩
    have ha : outs[rhs.length + i]? = some ((outs.drop rhs.length).get ⟨i, hi⟩) := by
      simp only [List.get_eq_getElem, List.getElem_drop]
      rw [List.getElem?_eq_getElem]
    have he : (rhs ++ svf)[rhs.length + i]? = some (svf.get ⟨i, hi'⟩) := by
      rw [List.getElem?_append_right (by omega), Nat.add_sub_cancel_left]
      simp
    refine ⟨?_, hev _ _ _ ha he⟩
    have h7 := hsvf (svf.get ⟨i, hi'⟩) (List.get_mem _ _)
    have h8 := (List.forall₂_iff_get.1 h5).2 (rhs.length + i) (by omega) (by simp; omega)
    simp only [List.get_eq_getElem] at h8 h7 ⊢
    rw [List.getElem_append_right (by omega)] at h8
    simp only [Nat.add_sub_cancel_left] at h8
    rw [List.getElem_drop]
    exact h8.1 h7.1 h7.2
  obtain ⟨is, h7, h8⟩ := svfIndices_ok (by omega) hF2
  have hl : (dc ++ (outs.take rhs.length).map fun a => ((a, []) : TElem ℝ)).length - names.length = dc.length := by
    rw [List.length_append, List.length_map, hot]; omega
  refine ⟨dc ++ (outs.take rhs.length).map (·, []), is, F, fun fuel hf => ?_, ?_, ?_⟩
  · rw [rawSys, h1 fuel hf]
    simp [h7]
  · rw [List.length_append, List.length_map, hot]; omega
  · have h9 := h2.len
    refine ⟨by rw [List.length_append, List.length_map, hot]; omega, ?_, ?_, ?_, ?_, ?_⟩
    · intro i e he hi
      rw [List.getElem?_append_left (by omega)] at he
      exact h2.vars i e hi he
    · intro i e he hi hi'
      rw [hl] at hi' ⊢
      rw [List.getElem?_append_left hi'] at he
      exact h2.elem F hF i e hi he
    · intro i e hi he
      rw [hl] at he ⊢
      rw [List.getElem?_append_right (by omega), Nat.add_sub_cancel_left, List.getElem?_map,
        Option.map_eq_some_iff] at he
      obtain ⟨a, ha, rfl⟩ := he
      rw [List.getElem?_take_of_lt (by omega)] at ha
      refine ⟨rfl, h4 a (List.mem_of_getElem? ha), ?_⟩
      have hri : rhs[i]? = some rhs[i] := by rw [List.getElem?_eq_getElem]
      have := hev i a rhs[i] ha (by rw [List.getElem?_append_left (by omega)]; exact hri)
      filter_upwards [this] with t ht
      rw [ht, rhsCurve, hri]
      rfl
    · intro i hi
      rw [hF.state i hi]
    · rw [hl]; exact h8

/-! ### The passes -/

theorem simplifySys_mono {fuel fuel' neq : ℕ} {dc : TDc ℝ} {svf : List ℕ} {r}
    (h : simplifySys fuel neq dc svf = some r) (hf : fuel ≤ fuel') : simplifySys fuel' neq dc svf = some r := by
  unfold simplifySys at h ⊢
  cases hc : tcse neq dc svf with
  | throw => rw [hc] at h; exact h
  | ub => rw [hc] at h; exact h
  | ok p =>
    obtain ⟨dc1, svf1⟩ := p
    rw [hc] at h
    simp only [Option.map_eq_some_iff] at h ⊢
    obtain ⟨r1, h1, h2⟩ := h
    refine ⟨r1, ?_, h2⟩
    unfold tsort at h1 ⊢
    simp only at h1 ⊢
    cases hg : graphEdges neq 0 ((dc1.take (dc1.length - neq)).map Prod.fst) with
    | throw => rw [hg] at h1; exact h1
    | ub => rw [hg] at h1; exact h1
    | ok es =>
      rw [hg] at h1
      simp only at h1 ⊢
      cases hk : kahnLoop fuel es [0] [] with
      | none => rw [hk] at h1; cases h1
      | some p =>
        rw [kahnLoop_mono hk fuel' hf]
        rw [hk] at h1
        exact h1

/-- A decomposition which is right gives a solution up to the order for which the state variables are one. -/
theorem TSysOk.along {F : ℕ → ℝ → ℝ} {neq N : ℕ} {X Y : ℕ → ℝ → ℝ} {G : List (ℝ → ℝ)} {dc : TDc ℝ} {svf : List ℕ}
    (h : TSysOk P F t0 par neq X Y G dc svf) (hpos : 0 < neq) (hb : dc.length ≤ 2 ^ 32)
    (hfn : ∀ (i : ℕ) (e : TElem ℝ), dc[i]? = some e → neq ≤ i → i < dc.length - neq → ∃ f es, e.1 = .fn f es)
    (hX : ∀ i < neq, SmoothAt (X i) t0)
    (hode : ∀ i < neq, ∀ k < N, ((k : ℝ) + 1) * tc (X i) t0 (k + 1) = tc (Y i) t0 k) :
    Along F t0 par neq N dc := by
  refine ⟨h.len, hpos, fun i hi => (hX i hi).congr (h.state i hi), ?_, ?_⟩
  · intro i e he hi hi'
    obtain ⟨f, es, hfe⟩ := hfn i e he hi hi'
    have hel := h.elem i e he hi hi'
    rcases hel.ok with ⟨f', es', he', -, ha, hp⟩ | ⟨m, c, hm, -, -⟩
    · refine ⟨f', es', _, he', targs_targU (by omega) ha, fun j hj => (targU_u ha hj).1, hel.deps, fun hs => hp.node hs⟩
    · rw [hfe] at hm; cases hm
  · intro i e hi he
    obtain ⟨-, h1, h2⟩ := h.outs i e hi he
    refine ⟨targU par e.1, fun t => (e.1.eval (envF par F t)).getD 0, targ_targU (by omega) h1, ?_, ?_, ?_⟩
    · intro j hj
      exact (targU_u (par := par) (es := [e.1]) (fun a ha => by rw [List.mem_singleton] at ha; rw [ha]; exact h1)
        (by rw [← hj]; simp)).1
    · intro t
      rw [argAt_targU h1]
      have h3 := h2.self_of_nhds
      revert h1 h3
      generalize e.1 = a
      intro h1 h3
      cases a with
      | num m => rw [Expr.eval_num] at h3; simp [h3]
      | fn f as => exact absurd h1 (by simp [ArgOk])
      | _ => simp
    · intro k hk
      rw [tc_congr (h.state i hi), hode i hi k hk]
      refine tc_congr ?_ k
      filter_upwards [h2] with t ht
      rw [ht]
      rfl

end Heyoka.Taylor

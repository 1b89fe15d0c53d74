import Verif.Decomp.FunDecLemmas
import Verif.Decomp.Growing
import Verif.Props.Rewrite
import Verif.Props.Order

/-!
# C08, C09: the decomposition of a function preserves the function

`functionDecompose` models `function_decompose()`, `evalDc` the code generated for a decomposition.
The specification is the evaluation of the original expressions (`Expr.eval`).
-/

set_option linter.unusedSectionVars false

namespace Heyoka.Sym

variable {K : Type}

/-! ### C09: common subexpression elimination -/

section
variable [Field K] [LinearOrder K] [Interp K] [FmtName K]

/-- C09: the elimination of common subexpressions does not change what a decomposition computes, for any
inputs; it keeps the input variables first, and afterwards no definition is repeated. The result is
well-formed: every definition only uses earlier ones. -/
theorem cse_sound {P : Fn K → Prop} (hP : NameSound P) {nvars nouts : Nat} {dc : List (Expr K)}
    (h : DcOk P nvars nouts dc) (hl : dc.length ≤ 2 ^ 32) :
    (∀ (v : Env K) (ins : List K), ins.length = nvars →
      evalDc v nvars nouts ins (cse nvars nouts dc) = evalDc v nvars nouts ins dc ∧
      ∃ outs, evalDc v nvars nouts ins dc = .ok outs ∧ outs.length = nouts) ∧
    DcOk P nvars nouts (cse nvars nouts dc) ∧ (cse nvars nouts dc).length ≤ dc.length ∧
    (cse nvars nouts dc).take nvars = dc.take nvars ∧
    (∀ (k l : Nat) (e e' : Expr K), nvars ≤ k → k < l → l < (cse nvars nouts dc).length - nouts →
      (cse nvars nouts dc)[k]? = some e → (cse nvars nouts dc)[l]? = some e' → e.beq e' = false) := by
  obtain ⟨h1, h2, h3, h4, h5⟩ := cse_ok hP h
  refine ⟨fun v ins hi => ⟨evalDc_congr h h1 hl (by omega) h5 v hi, ?_⟩, h1, h2, h3, h4⟩
  obtain ⟨val, -, h6⟩ := evalDc_ins h hl v hi
  refine ⟨_, h6, ?_⟩
  have := h.len
  rw [List.length_map, dcOuts, List.length_drop]
  omega

end

/-! ### C09: topological sort -/

section
variable [Field K] [LinearOrder K] [Interp K]

/-- C09: the sort of a well-formed decomposition ends, does not fail, and yields the same definitions in
another order (no one is lost or duplicated), with the `u` variables renamed consistently; the inputs
stay first, the result is well-formed and computes the same outputs. -/
theorem sort_sound {P : Fn K → Prop} {nvars nouts : Nat} {dc : List (Expr K)}
    (h : DcOk P nvars nouts dc) (hl : dc.length ≤ 2 ^ 32) :
    ∃ dc', (∀ fuel, dc.length + 1 ≤ fuel → sortDc fuel nvars nouts dc = some (.ok dc')) ∧
      (∃ (idx : List Nat) (ren : List (String × String)), idx.Perm (List.range (dc.length - nouts)) ∧
        idx.take nvars = List.range nvars ∧
        (∀ k i : Nat, idx[k]? = some i → renameIn (K := K) ren (.var (uname i)) = .var (uname k)) ∧
        (∀ s : String, (∀ i, nvars ≤ i → s ≠ uname i) → renameIn (K := K) ren (.var s) = .var s) ∧
        (∀ k i : Nat, idx[k]? = some i → dc'[k]? = (dc[i]?).map (renameIn ren)) ∧
        dcOuts nouts dc' = (dcOuts nouts dc).map (renameIn ren)) ∧
      DcOk P nvars nouts dc' ∧ dc'.length = dc.length ∧
      ∀ (v : Env K) (ins : List K), ins.length = nvars →
        evalDc v nvars nouts ins dc' = evalDc v nvars nouts ins dc ∧
        ∃ outs, evalDc v nvars nouts ins dc = .ok outs ∧ outs.length = nouts := by
  obtain ⟨h1, h2⟩ := sortDc_eq h hl (dc.length + 1)
  obtain ⟨r, hr⟩ := h2 (le_refl _)
  obtain ⟨idx, hro, rfl, hdep⟩ := h1 r hr
  obtain ⟨h3, h4, h5, h6⟩ := reorder_ok h hro hdep rfl
  have hlen := h.len
  refine ⟨_, fun fuel hf => sortDc_mono hr hf, ⟨idx, remapOf nvars idx, hro.perm, hro.vars, ?_, ?_, ?_, ?_⟩,
    h3, h4, fun v ins hi => ⟨evalDc_congr h h3 hl (by omega) h6 v hi, ?_⟩⟩
  · intro k i hi
    rw [renameIn, Expr.mapNodes, renameLeaf_var, remapOf_lookup hro hi]
  · intro s hs
    rw [renameIn, Expr.mapNodes, renameLeaf_var, renName, lookup_none]
    · rfl
    · intro p hp
      obtain ⟨q, hq, rfl⟩ := List.mem_map.1 hp
      obtain ⟨n, hn⟩ := List.mem_iff_getElem?.1 hq
      rw [List.getElem?_drop, List.getElem?_zipIdx, Option.map_eq_some_iff] at hn
      obtain ⟨i, hi, rfl⟩ := hn
      exact fun he => hs i (hro.ge hi (by omega)) he.symm
  · intro k i hi
    have hk : k < dc.length - nouts := by
      have := (List.getElem?_eq_some_iff.1 hi).1
      rwa [hro.length] at this
    obtain ⟨i', h7, h8⟩ := h5 k hk
    rw [hi] at h7
    cases h7
    exact h8
  · have hidx : ∀ i ∈ idx, i < dc.length - nouts := fun i hi =>
      List.mem_range.1 (hro.perm.mem_iff.1 hi)
    obtain ⟨hf1, -⟩ := filterMap_getElem? (dc := dc) (idx := idx) fun i hi => by
      have := hidx i hi; omega
    rw [dcOuts, h4, List.map_append, List.drop_left']
    rw [List.length_map, hf1, hro.length]
  · obtain ⟨val, -, h6⟩ := evalDc_ins h hl v hi
    refine ⟨_, h6, ?_⟩
    rw [List.length_map, dcOuts, List.length_drop]
    omega

end

/-! ### The caches of the renaming -/

/-- The elimination of common subexpressions keeps the caches of the renaming while it adds entries to
the map. This is sound: if every entry added after an expression was renamed is for a `u` variable not
occurring in it, each expression is renamed by the map at its own time. -/
theorem rename_growing_maps (h : Heap K) (hv : h.Valid) (l : List ((String → Option String) × Ref K))
    (hr : ∀ p ∈ l, p.2.Below h.length)
    (hg : l.Pairwise fun p q => ∀ s, .var s ∈ (h.unfold p.2).toExpr.leaves → p.1 s = q.1 s) :
    ∃ N, ∀ fuel, N ≤ fuel → renameSeq fuel [] [] (l.map fun p => (p.1, h.unfold p.2)) =
      some (.ok (l.map fun p => (h.unfold p.2).toExpr.mapNodes (renameLeaf p.1) id)) := by
  obtain ⟨N, hN⟩ := renameSeq_eq (Heap.consistent hv) (l.map fun p => (p.1, h.unfold p.2))
    (fun p hp => by
      obtain ⟨q, hq, rfl⟩ := List.mem_map.1 hp
      exact ⟨q.2, hr q hq, rfl⟩)
    (by rw [List.pairwise_map]; exact hg) [] [] ⟨by simp, by simp⟩
  refine ⟨N, fun fuel hf => ?_⟩
  rw [hN fuel hf, List.map_map]
  rfl

/-! ### C08: the whole decomposition -/

/-- The values of the outputs agree with those of the expressions wherever the latter are defined. -/
def ValuesAt (v : Env ℝ) (es : List (Expr ℝ)) (outs : List (Option ℝ)) : Prop :=
  outs.length = es.length ∧
    ∀ (k : Nat) (e : Expr ℝ) (x : ℝ), es[k]? = some e → e.eval v = some x → outs[k]? = some (some x)

theorem combOk_real : CombOk ℝ := by
  intro b
  constructor <;> funext vs <;> rw [app_def, app_def] <;>
    (match vs with
      | [] => rfl
      | [x] => rfl
      | x :: y :: l => rfl)

theorem builtin_rewClosed : RewClosed (Fn.builtin (K := ℝ)) := by
  constructor <;> intros <;> trivial

section
variable [FmtName ℝ] {P : Fn ℝ → Prop}

theorem good_of_fnAll {e : Expr ℝ} (h : e.FnAll P) : e.Good P (fun _ => True) fun _ => True := by
  induction e using Expr.ind with
  | fn f args ih =>
    have h2 : P f ∧ Expr.FnAllL P args := h
    rw [Expr.good_fn]
    refine ⟨h2.1, fun a ha => ih a ha ?_⟩
    have : ∀ l : List (Expr ℝ), Expr.FnAllL P l → ∀ a ∈ l, a.FnAll P := by
      intro l
      induction l with
      | nil => intro _ a ha; cases ha
      | cons b l ihl =>
        intro hl a ha
        rcases List.mem_cons.1 ha with rfl | ha
        · exact hl.1
        · exact ihl hl.2 a ha
    exact this args h2.2 a ha
  | _ => trivial

theorem varNames_map (names : List String) : varNames (names.map (Expr.var (K := K))) = some names := by
  induction names with
  | nil => rfl
  | cons s l ih => simp [varNames, ih]

/-- The rewritten expressions in terms of the `u` variables: the ones which are actually decomposed. -/
noncomputable def decomposed (names : List String) (es : List (Expr ℝ)) : List (Expr ℝ) :=
  es.map fun e => renameIn (renMap names) (rewritesEval e)

/-- The first part of the decomposition. -/
theorem raw_decompose_ok (hR : RewClosed P) (share : List (Expr ℝ) → List (Node ℝ)) (es : List (Expr ℝ))
    (names : List String) (hne : es ≠ []) (hnd : names.Nodup)
    (hcov : ∀ e ∈ es, ∀ s, s ∈ e.variables → s ∈ names) (hg : ∀ e ∈ es, e.FnAll P)
    (hsh : Represents (share (decomposed names es)) (decomposed names es)) :
    ∃ N dc, (∀ fuel, N ≤ fuel → rawDecompose fuel share es (names.map .var) = some (.ok dc)) ∧
      DcOk P names.length es.length dc ∧ dc.take names.length = names.map .var ∧
      ∀ v : Env ℝ, ∀ val : String → Option ℝ,
        Sat (insEnv v (names.map v.var)) names.length (dc.take (dc.length - es.length)) val →
        ValuesAt v es ((dcOuts es.length dc).map (argV (insEnv v (names.map v.var)) val)) := by
  have hrw : ∀ e ∈ es, (rewritesEval e).Good P (· ∈ names) (fun _ => True) := fun e he =>
    rewritesEval_good hR (Expr.good_of_variables (good_of_fnAll (hg e he)) (hcov e he))
  have hren : ∀ s, s ∈ names → ∃ j : Nat, names[j]? = some s ∧
      renName (fun s => (renMap names).lookup s) s = uname j := fun s hs => by
    obtain ⟨j, hj⟩ := List.mem_iff_getElem?.1 hs
    exact ⟨j, hj, renMap_lookup hnd hj⟩
  have hl : (names.map (Expr.var (K := ℝ))).length = names.length := by simp
  have hgood : ∀ e ∈ decomposed names es,
      e.Good P (fun s => ∃ j, j < (names.map (Expr.var (K := ℝ))).length ∧ s = uname j) fun _ => True := by
    intro e he
    obtain ⟨e0, he0, rfl⟩ := List.mem_map.1 he
    refine (hrw e0 he0).rename fun s hs => ?_
    obtain ⟨j, h1, h2⟩ := hren s hs
    exact ⟨j, by rw [hl]; exact (List.getElem?_eq_some_iff.1 h1).1, h2⟩
  obtain ⟨N, d, outs, h1, h2, h3, h4⟩ := decAll_append hsh hgood
  have hes : (decomposed names es).length = es.length := by simp [decomposed]
  rw [hl, hes] at h2 h4
  refine ⟨N, _, fun fuel hf => ?_, h2, ?_, ?_⟩
  · unfold rawDecompose
    rw [if_neg (by simpa using hne), varNames_map]
    simp only
    rw [if_neg (by simpa using hnd), if_neg]
    · have := h1 fuel hf
      rw [decomposed] at this
      rw [this]
      rfl
    · rw [not_not, List.all_eq_true]
      intro s hs
      obtain ⟨e, he, hs⟩ := List.mem_flatMap.1 hs
      simpa using hcov e he s hs
  · rw [List.append_assoc, List.take_left' hl]
  · intro v val hs
    rw [h4 _ _ hs]
    refine ⟨by simp [decomposed], fun k e x he hx => ?_⟩
    rw [decomposed, List.map_map, List.getElem?_map, he]
    simp only [Option.map_some, Function.comp]
    rw [eval_rename (v := v) (v' := insEnv v (names.map v.var)) rfl rfl ?_ (hrw e (List.mem_of_getElem? he)), rewrites_eval_value e x hx]
    intro s hs
    obtain ⟨j, h5, h6⟩ := hren s hs
    rw [h6, insEnv_var, List.getD_eq_getElem?_getD, List.getElem?_map, h5]
    rfl

/-- C08: the decomposition of a vector function. For every graph of function objects representing the
rewritten expressions, if the decomposition has at most 2 ^ 32 elements (the indices are 32-bit
integers), it is produced, every element only uses earlier ones, and the code generated for it computes
the values of the original expressions at every point where they are defined. -/
theorem function_decompose_value (hP : NameSound P) (hR : RewClosed P)
    (share : List (Expr ℝ) → List (Node ℝ)) (es : List (Expr ℝ)) (names : List String) (hne : es ≠ [])
    (hnd : names.Nodup) (hcov : ∀ e ∈ es, ∀ s, s ∈ e.variables → s ∈ names) (hg : ∀ e ∈ es, e.FnAll P)
    (hsh : Represents (share (decomposed names es)) (decomposed names es)) :
    ∃ N dc0, (∀ fuel, N ≤ fuel → rawDecompose fuel share es (names.map .var) = some (.ok dc0)) ∧
      (dc0.length ≤ 2 ^ 32 → ∃ N' dc,
        (∀ fuel, N' ≤ fuel → functionDecompose fuel share es (names.map .var) = some (.ok dc)) ∧
        DcOk P names.length es.length dc ∧ dc.length ≤ dc0.length ∧
        ((∀ s ∈ names, ∀ i, names.length ≤ i → s ≠ uname i) →
          dc.take names.length = names.map .var) ∧
        ∀ v : Env ℝ, ∃ outs,
          evalDc v names.length es.length (names.map v.var) dc = .ok outs ∧ ValuesAt v es outs) := by
  obtain ⟨N, dc0, h1, h2, h3, h4⟩ := raw_decompose_ok hR share es names hne hnd hcov hg hsh
  refine ⟨N, dc0, h1, fun hb => ?_⟩
  obtain ⟨c1, c2, c3, c4, c5⟩ := cse_sound hP h2 hb
  obtain ⟨dc2, s1, ⟨idx, ren, i1, i2, i3, i3', i4, i5⟩, s3, s4, s5⟩ := sort_sound c2 (by omega)
  obtain ⟨t1, t2, t3, t4⟩ := sincosCombine_ok hR combOk_real s3
  refine ⟨max N ((cse names.length es.length dc0).length + 1), sincosCombine dc2, fun fuel hf => ?_, t1, by omega,
    ?_, fun v => ?_⟩
  · unfold functionDecompose
    rw [h1 fuel (by omega)]
    simp only [List.length_map]
    rw [s1 fuel (by omega)]
    rfl
  · intro hnames
    have hn2 : ∀ k : Nat, k < names.length → (sincosCombine dc2)[k]? = (names.map Expr.var)[k]? := by
      intro k hk
      have hik : idx[k]? = some k := by
        have : (idx.take names.length)[k]? = some k := by rw [i2]; simp [hk]
        rwa [List.getElem?_take_of_lt hk] at this
      have hck : (cse names.length es.length dc0)[k]? = some (.var names[k]) := by
        have : ((cse names.length es.length dc0).take names.length)[k]? = some (.var names[k]) := by
          rw [c4, h3]; simp [hk]
        rwa [List.getElem?_take_of_lt hk] at this
      rw [sincosCombine, List.getElem?_map, i4 k k hik, hck]
      simp only [Option.map_some]
      rw [i3' _ (hnames _ (List.getElem_mem hk))]
      simp [sincosElem, hk]
    refine List.ext_getElem? fun k => ?_
    rcases Nat.lt_or_ge k names.length with hk | hk
    · rw [List.getElem?_take_of_lt hk, hn2 k hk]
    · rw [List.getElem?_eq_none (by rw [List.length_take]; omega), List.getElem?_eq_none (by simpa using hk)]
  · have hins : (names.map v.var).length = names.length := by simp
    obtain ⟨val, g1, g2⟩ := evalDc_ins h2 hb v hins
    refine ⟨_, ?_, h4 v val g1⟩
    rw [← g2, ← (c1 v _ hins).1, ← (s5 v _ hins).1]
    refine evalDc_congr s3 t1 (by omega) (by omega) ?_ v hins
    intro v' val1 val2 e1 e2
    have e3 := t4 v' val1 e1
    rw [t3]
    refine List.map_congr_left fun a ha => argV_congr (s3.outs a ha) fun j hj => ?_
    refine sat_unique t1.wf e2 e3 j ?_
    rw [List.length_take]
    omega

/-- C08, the errors: no outputs, something which is not a variable in the list of variables, a repeated
variable, a variable of the function missing from the list. In these cases the decomposition is refused (and
only in these, by `function_decompose_value`). -/
theorem function_decompose_throws (share : List (Expr ℝ) → List (Node ℝ)) (es vars : List (Expr ℝ))
    (fuel : Nat) (h : es = [] ∨ (∃ e ∈ vars, ∀ s, e ≠ .var s) ∨ ¬ vars.Nodup ∨
      ∃ e ∈ es, ∃ s ∈ e.variables, .var s ∉ vars) :
    functionDecompose fuel share es vars = some .throw := by
  have hraw : rawDecompose fuel share es vars = some .throw := by
    unfold rawDecompose
    split_ifs with h1
    · rfl
    · cases hv : varNames vars with
      | none => rfl
      | some names =>
        have hvars := varNames_eq hv
        subst hvars
        simp only
        split_ifs with h2 h3
        · exfalso
          rcases h with h | ⟨e, he, h⟩ | h | ⟨e, he, s, hs, h⟩
          · exact h1 (by simp [h])
          · obtain ⟨s, -, rfl⟩ := List.mem_map.1 he
            exact h s rfl
          · exact h (List.Nodup.map (fun a b hab => by injection hab) h2)
          · have h4 := List.all_eq_true.1 h3 s (List.mem_flatMap.2 ⟨e, he, hs⟩)
            exact h (List.mem_map_of_mem (by simpa using h4))
        · rfl
        · rfl
  unfold functionDecompose
  rw [hraw]

/-- Every list of expressions has a graph (so that the hypothesis of `function_decompose_value` can be
met). -/
theorem exists_share : ∃ share : List (Expr ℝ) → List (Node ℝ), ∀ es, Represents (share es) es :=
  ⟨fun es => (represents_exists es).choose, fun es => (represents_exists es).choose_spec⟩

/-- A function with shared subexpressions and all kinds of leaves meets the hypotheses. -/
example : ∃ share : List (Expr ℝ) → List (Node ℝ),
    let es : List (Expr ℝ) := [.fn (.sin false) [.fn .sum [.var "x", .par 0]],
      .fn (.prod false) [.fn (.sin false) [.fn .sum [.var "x", .par 0]], .fn (.cos false) [.var "y"]], .var "y"]
    es ≠ [] ∧ ["y", "x"].Nodup ∧ (∀ e ∈ es, ∀ s, s ∈ e.variables → s ∈ ["y", "x"]) ∧
      (∀ e ∈ es, e.FnAll Fn.builtin) ∧
      Represents (share (decomposed ["y", "x"] es)) (decomposed ["y", "x"] es) := by
  obtain ⟨share, hs⟩ := exists_share
  refine ⟨share, by simp, by decide, ?_, ?_, hs _⟩
  · intro e he s hs
    simp only [List.mem_cons, List.not_mem_nil, or_false] at he
    rw [Expr.variables, mem_sortedSet] at hs
    rcases he with rfl | rfl | rfl <;>
      simp [Expr.leaves, Expr.leavesL, leafVar, List.filterMap_cons] at hs <;> simp <;> tauto
  · intro e he
    simp only [List.mem_cons, List.not_mem_nil, or_false] at he
    rcases he with rfl | rfl | rfl <;> simp [Expr.FnAll, Expr.FnAllL, Fn.builtin]

end

/-! ### Examples -/

/-- The decomposition of `[cos(sin(x)), exp(y)]` with the variables `x, y`, before the sort. -/
def exampleDc (y : String) : List (Expr ℚ) :=
  [.var "x", .var y, .fn (.sin false) [.var "u_0"], .fn (.cos false) [.var "u_2"], .fn .exp [.var "u_1"],
   .var "u_3", .var "u_4"]

/-- The decomposition is well-formed. -/
example : DcOk (fun _ => True) 2 2 (exampleDc "y") := by
  refine ⟨by decide, ⟨by decide, ?_⟩, ?_⟩
  · intro i e he hi
    match i, hi, he with
    | 2, _, he =>
      cases he
      exact ⟨_, _, rfl, trivial, by simp [ArgOk]; exact ⟨0, by decide, by decide +kernel⟩⟩
    | 3, _, he =>
      cases he
      exact ⟨_, _, rfl, trivial, by simp [ArgOk]; exact ⟨2, by decide, by decide +kernel⟩⟩
    | 4, _, he =>
      cases he
      exact ⟨_, _, rfl, trivial, by simp [ArgOk]; exact ⟨1, by decide, by decide +kernel⟩⟩
    | n + 5, _, he => simp [exampleDc] at he
  · intro a ha
    simp only [dcOuts, exampleDc, List.length_cons, List.length_nil, List.drop_succ_cons, List.drop_zero,
      List.mem_cons, List.not_mem_nil, or_false] at ha
    rcases ha with rfl | rfl
    · exact ⟨3, by decide, by decide +kernel⟩
    · exact ⟨4, by decide, by decide +kernel⟩

/-- The sort moves the exponential before the cosine and renames the outputs. -/
example : sortDc 8 2 2 (exampleDc "y") = some (.ok
    [.var "x", .var "y", .fn (.sin false) [.var "u_0"], .fn .exp [.var "u_1"], .fn (.cos false) [.var "u_2"],
     .var "u_4", .var "u_3"]) := by
  with_unfolding_all rfl

/-- The restriction on the names in `function_decompose_value` is needed: an input called `u_3` is renamed
by the sort, so that the decomposition shows `u_4` in its place. -/
theorem input_named_like_u_variable : sortDc 8 2 2 (exampleDc "u_3") = some (.ok
    [.var "x", .var "u_4", .fn (.sin false) [.var "u_0"], .fn .exp [.var "u_1"], .fn (.cos false) [.var "u_2"],
     .var "u_4", .var "u_3"]) := by
  with_unfolding_all rfl

/-- A repeated definition is removed. -/
example : cse 1 1 ([.var "x", .fn (.sin false) [.var "u_0"], .fn (.sin false) [.var "u_0"],
      .fn .sum [.var "u_1", .var "u_2"], .var "u_3"] : List (Expr ℚ)) =
    [.var "x", .fn (.sin false) [.var "u_0"], .fn .sum [.var "u_1", .var "u_1"], .var "u_2"] := by
  with_unfolding_all rfl

/-- Growing maps on the example heap: the second map adds an entry for a variable which does not occur in
the first expression. -/
example : [((fun s => if s = "x" then some "u_0" else none : String → Option String), (.obj 0 : Ref ℚ)),
      (fun s => if s = "x" then some "u_0" else if s = "u_1" then some "u_0" else none, .obj 3)].Pairwise
    fun p q => ∀ s, .var s ∈ (exampleHeap.unfold p.2).toExpr.leaves → p.1 s = q.1 s := by
  refine List.pairwise_cons.2 ⟨?_, List.pairwise_singleton _ _⟩
  intro q hq s hs
  rw [List.mem_singleton] at hq
  subst hq
  have : s = "x" := by
    have h1 : (exampleHeap.unfold (.obj 0)).toExpr.leaves = [.var "x"] := by with_unfolding_all rfl
    rw [h1] at hs
    simpa using hs
  subst this
  rfl

end Heyoka.Sym

import Verif.Props.CFunc
import Verif.Compact.Built
import Verif.Props.Segments
import Verif.Decomp.Size

/-!
# C11, C45: compiled functions in compact mode
-/

set_option linter.unusedSectionVars false

namespace Heyoka.Sym

/-! ### C45: specification -/

/-- The structure of a nested function: the LLVM names of the functions, how they are nested, and the kinds of the
leaves. -/
inductive Skel where
  | leaf (k : Kind)
  | node (name : List Char) (args : List Skel)

section
variable {K : Type} [Field K] [LinearOrder K] [FloorRing K] [Interp K] [CodeInterp K] [FmtName K]

mutual
/-- The structure of an expression. -/
def Expr.skel : Expr K → Skel
  | .num _ => .leaf .num
  | .var _ => .leaf .var
  | .par _ => .leaf .par
  | .fn f args => .node f.llvmName (Expr.skelL args)
/-- The structures of several expressions. -/
def Expr.skelL : List (Expr K) → List Skel
  | [] => []
  | e :: es => Expr.skel e :: Expr.skelL es
end

/-! ### Helpers -/

/-- The kind of a leaf, as a total function. -/
def kindOf' : Expr K → Kind
  | .num _ => .num
  | .par _ => .par
  | _ => .var

theorem kindsOf_leaves {l : List (Expr K)} (h : ∀ a ∈ l, a.isFn = false) : kindsOf l = .ok (l.map kindOf') := by
  induction l with
  | nil => rfl
  | cons a l ih =>
    rw [kindsOf, ih fun x hx => h x (List.mem_cons_of_mem _ hx)]
    have := h a List.mem_cons_self
    cases a <;> first | rfl | simp [Expr.isFn] at this

mutual
theorem skel_eq : (e e' : Expr K) → SameShape e e' →
    ∀ (r r' : List Kind), e.leaves.map kindOf' ++ r = e'.leaves.map kindOf' ++ r' → e.skel = e'.skel ∧ r = r'
  | .fn f as, .fn g bs, h, r, r', hk => by
    have h' : f.llvmName = g.llvmName ∧ SameShapeL as bs := h
    obtain ⟨h1, h2⟩ := skelL_eq as bs h'.2 r r' hk
    exact ⟨by rw [Expr.skel, Expr.skel, h'.1, h1], h2⟩
  | .fn f as, .num _, h, _, _, _ => h.elim
  | .fn f as, .var _, h, _, _, _ => h.elim
  | .fn f as, .par _, h, _, _, _ => h.elim
  | .num _, .fn _ _, h, _, _, _ => h.elim
  | .var _, .fn _ _, h, _, _, _ => h.elim
  | .par _, .fn _ _, h, _, _, _ => h.elim
  | .num _, .num _, _, r, r', hk => by simp [Expr.leaves, kindOf'] at hk; exact ⟨rfl, hk⟩
  | .num _, .var _, _, r, r', hk => by simp [Expr.leaves, kindOf'] at hk
  | .num _, .par _, _, r, r', hk => by simp [Expr.leaves, kindOf'] at hk
  | .var _, .num _, _, r, r', hk => by simp [Expr.leaves, kindOf'] at hk
  | .var _, .var _, _, r, r', hk => by simp [Expr.leaves, kindOf'] at hk; exact ⟨rfl, hk⟩
  | .var _, .par _, _, r, r', hk => by simp [Expr.leaves, kindOf'] at hk
  | .par _, .num _, _, r, r', hk => by simp [Expr.leaves, kindOf'] at hk
  | .par _, .var _, _, r, r', hk => by simp [Expr.leaves, kindOf'] at hk
  | .par _, .par _, _, r, r', hk => by simp [Expr.leaves, kindOf'] at hk; exact ⟨rfl, hk⟩
theorem skelL_eq : (as bs : List (Expr K)) → SameShapeL as bs →
    ∀ (r r' : List Kind), (Expr.leavesL as).map kindOf' ++ r = (Expr.leavesL bs).map kindOf' ++ r' →
      Expr.skelL as = Expr.skelL bs ∧ r = r'
  | [], [], _, r, r', hk => ⟨rfl, by simpa [Expr.leavesL] using hk⟩
  | a :: as, b :: bs, h, r, r', hk => by
    rw [Expr.leavesL, Expr.leavesL, List.map_append, List.map_append, List.append_assoc, List.append_assoc] at hk
    obtain ⟨h1, h2⟩ := skel_eq a b h.1 _ _ hk
    obtain ⟨h3, h4⟩ := skelL_eq as bs h.2 r r' h2
    exact ⟨by rw [Expr.skelL, Expr.skelL, h1, h3], h4⟩
  | [], _ :: _, h, _, _, _ => h.elim
  | _ :: _, [], h, _, _, _ => h.elim
end

theorem allSome_evalL (v : Env K) (args : List (Expr K)) : allSome (args.map (Expr.eval v)) = Expr.evalL v args := by
  induction args with
  | nil => rfl
  | cons a as ih =>
    rw [Expr.evalL_cons, ← ih, List.map_cons]
    cases Expr.eval v a with
    | none => rfl
    | some x =>
      rw [allSome]

theorem treeVal_eval (v : Env K) (e : Expr K) : treeVal v (Expr.eval v) e = e.eval v := by
  induction e using Expr.ind with
  | fn f args ih =>
    have h : treeValL v (Expr.eval v) args = args.map (Expr.eval v) := by
      rw [treeValL_eq]
      exact List.map_congr_left ih
    rw [treeVal, h]
    by_cases hc : f = .time ∧ args = []
    · obtain ⟨rfl, rfl⟩ := hc
      simp [appO]
    · have hc' : f ≠ .time ∨ args ≠ [] := by
        by_contra hn
        push Not at hn
        exact hc hn
      rw [Expr.eval_fn v f args hc', ← allSome_evalL]
      unfold appO
      split
      · rename_i heq
        exact absurd ⟨rfl, List.map_eq_nil_iff.1 heq⟩ hc
      · rfl
  | _ => rfl

/-! ### C45: theorems -/

/-- C45: if the same mangled name (the name of the function and the kinds of its arguments) is generated for two functions,
nested or not, then they have the same structure: the same names, nested in the same way, and the same
kinds of leaves. `compositeOk` is the check of the names made when a composite function is
created. -/
theorem composite_name_structure {e e' : Expr K} {nm : List Char} (he : compositeOk e = true)
    (he' : compositeOk e' = true) (h : mangled e = .ok nm) (h' : mangled e' = .ok nm) : e.skel = e'.skel := by
  obtain ⟨h1, h2⟩ := mangled_inj he he' h h'
  rw [kindsOf_leaves fun a ha => isFn_of_mem_leaves ha, kindsOf_leaves fun a ha => isFn_of_mem_leaves ha] at h2
  injection h2 with h2
  exact (skel_eq e e' h1 [] [] (by rw [List.append_nil, List.append_nil]; exact h2)).1

/-- C45: the evaluation of a merged function. Its arguments are the values of the leaves of the nested
function, from left to right; all of them are used, and the result is the value of the nested function. The
evaluation is for vectors of `b` values. -/
theorem composite_value {P : Fn K → Prop} {T : Prop} (hcode : CodeSound P) {e : Expr K} (he : e.TreeOk P T) {b : Nat}
    {timep : Ptr K} {vs : Nat → Env K} (ht : T → ∀ l, l < b → timep.load l = .ok ((vs l).time)) :
    treeCode b timep e (e.leaves.map fun a => (List.range b).map fun l => a.eval (vs l)) =
      .ok ((List.range b).map fun l => e.eval (vs l), []) := by
  obtain ⟨w, h1, h2⟩ := treeCode_ok (L := fun l => Expr.eval (vs l)) hcode ht (fun l _ n => rfl) e he
    (e.leaves.map fun a => (List.range b).map fun l => a.eval (vs l)) [] (by
      rw [List.forall₂_map_right_iff, List.forall₂_same]
      intro a _
      exact ⟨by simp, fun l hl => by simp [hl]⟩)
  rw [List.append_nil] at h1
  rw [h1, h2.eq_map]
  congr 2
  refine List.map_congr_left fun l _ => ?_
  exact treeVal_eval (vs l) e

end

/-! ### C11: specification -/

/-- Two compiled functions cannot be told apart by their evaluations. -/
structure SameFunction [FmtName ℝ] (cf cf' : CFunc ℝ) : Prop where
  nvars : cf.nvars = cf'.nvars
  nouts : cf.nouts = cf'.nouts
  nparams : cf.nparams = cf'.nparams
  timeDep : cf.timeDep = cf'.timeDep
  single : ∀ (arr : List (Option ℝ)) (ins : List ℝ) (pars : Option (List ℝ)) (time : Option ℝ),
    singleEval cf arr ins pars time = singleEval cf' arr ins pars time
  multi : ∀ (rows cols : Nat) (ins : Arr2 ℝ) (pars : Option (Arr2 ℝ)) (times : Option (List ℝ)), ins.Valid →
    (∀ p, pars = some p → p.Valid) →
    (multiEval cf rows cols ins pars times = .throw ∧ multiEval cf' rows cols ins pars times = .throw) ∨
      ∃ ts ts', multiEval cf rows cols ins pars times = .ok ts ∧ multiEval cf' rows cols ins pars times = .ok ts' ∧
        ∀ σ σ', Interleave ts σ → Interleave ts' σ' → ∀ arr : List (Option ℝ), arr.length = rows * cols →
          ∃ r, applyW arr σ = .ok r ∧ applyW arr σ' = .ok r

/-! ### C11: theorems -/

section
variable [FmtName ℝ]

/-- Compiled functions computing the same values are the same function. -/
theorem compiled_same {names : List String} {es : List (Expr ℝ)} {cf cf' : CFunc ℝ} {out : Env ℝ → List (Option ℝ)}
    (hnd : names.Nodup) (h : Compiled names es cf out) (h' : Compiled names es cf' out) : SameFunction cf cf' := by
  have e1 : cf.nvars = cf'.nvars := by rw [h.nvars, h'.nvars]
  have e2 : cf.nouts = cf'.nouts := by rw [h.nouts, h'.nouts]
  have e3 : cf.nparams = cf'.nparams := h.params.unique h'.params
  have e4 : cf.timeDep = cf'.timeDep := by
    rw [Bool.eq_iff_iff, h.time, h'.time]
  refine ⟨e1, e2, e3, e4, fun arr ins pars time => ?_, fun rows cols ins pars times hiv hpv => ?_⟩
  · have s1 := single_eval_value h arr ins pars time
    have s2 := single_eval_value h' arr ins pars time
    rw [← e1, ← e2, ← e3, ← e4] at s2
    by_cases hok : SingleOk cf.nvars cf.nouts cf.nparams (cf.timeDep = true) arr ins pars time
    · let v : Env ℝ := ⟨fun s => ins.getD (names.idxOf s) 0, fun i => (pars.getD []).getD i 0, time.getD 0⟩
      have hv : ∀ (i : Nat) (s : String), names[i]? = some s → ins[i]? = some (v.var s) := by
        intro i s hs
        obtain ⟨hi, rfl⟩ := List.getElem?_eq_some_iff.1 hs
        have hi' : i < ins.length := by rw [hok.ins, h.nvars]; exact hi
        simp only [v, hnd.idxOf_getElem]
        rw [List.getD_eq_getElem?_getD, List.getElem?_eq_getElem hi']
        rfl
      have hp : ∀ p, pars = some p → ∀ i : Nat, i < p.length → p[i]? = some (v.par i) := by
        rintro p rfl i hi
        simp [v, hi]
      have htm : ∀ t, time = some t → t = v.time := by
        rintro t rfl
        rfl
      rw [(s1.2 hok v hv hp htm).1, (s2.2 hok v hv hp htm).1]
    · rw [s1.1 hok, s2.1 hok]
  · have m1 := multi_eval_throws h (rows := rows) (cols := cols) (times := times) hiv hpv hnd
    have m2 := multi_eval_throws h' (rows := rows) (cols := cols) (times := times) hiv hpv hnd
    by_cases hs : ShapesOk cf.nvars cf.nouts cf.nparams (cf.timeDep = true) rows cols ins pars times
    · right
      have hs' : ShapesOk cf'.nvars cf'.nouts cf'.nparams (cf'.timeDep = true) rows cols ins pars times := by
        rw [← e1, ← e2, ← e3, ← e4]
        exact hs
      obtain ⟨vs, hvs⟩ := column_envs (names := names) (times := times) hnd hiv hpv (by rw [← h.nvars]; exact hs)
      obtain ⟨ts, t1, -, t2⟩ := multi_eval_columns h hs hiv hpv hvs
      obtain ⟨ts', t1', -, t2'⟩ := multi_eval_columns h' hs' hiv hpv hvs
      refine ⟨ts, ts', t1, t1', fun σ σ' hσ hσ' arr harr => ?_⟩
      obtain ⟨r, r1, r2, r3⟩ := t2 σ hσ arr harr
      obtain ⟨r', r1', r2', r3'⟩ := t2' σ' hσ' arr harr
      refine ⟨r, r1, ?_⟩
      rw [r1']
      congr 1
      refine List.ext_getElem? fun a => ?_
      by_cases ha : a < rows * cols
      · have hc : 0 < cols := by
          rcases Nat.eq_zero_or_pos cols with rfl | hc
          · simp at ha
          · exact hc
        have hk : a % cols < cols := Nat.mod_lt _ hc
        have hi : a / cols < rows := Nat.div_lt_of_lt_mul (by rw [Nat.mul_comm]; exact ha)
        obtain ⟨col, -, rfl, -, c1⟩ := r3 _ hk
        obtain ⟨col', -, rfl, -, c1'⟩ := r3' _ hk
        have hd : a / cols * cols + a % cols = a := by rw [Nat.mul_comm]; exact Nat.div_add_mod a cols
        have g1 := c1 _ hi
        have g2 := c1' _ hi
        rw [hd] at g1 g2
        rw [g1, g2]
      · rw [List.getElem?_eq_none (by omega), List.getElem?_eq_none (by omega)]
    · refine .inl ⟨m1.1.2 hs, m2.1.2 ?_⟩
      rw [← e1, ← e2, ← e3, ← e4]
      exact hs

/-- C11: let the expressions `es` be built with the public constructors. The compiled functions constructed in default mode
and in compact mode are the same function. `share` and `nodes` describe which function objects are shared; the
decomposition must fit into 32-bit indices, as must the indices of the parameters. -/
theorem compact_mode_same {S : ℝ → Prop} (hS : HexOk S) (M simd : Nat) (hM : M ≤ 2 ^ 32) (hsimd : 0 < simd)
    (share : List (Expr ℝ) → List (Node ℝ)) (nodes : List (Node ℝ)) (es : List (Expr ℝ))
    (names : List String) (batch : Option Nat) (hnodes : Represents nodes es) (hne : es ≠ [])
    (hnd : names.Nodup)
    (hcov : ∀ e ∈ es, ∀ s, s ∈ e.variables → s ∈ names) (hb : ∀ e ∈ es, Built S e)
    (hsh : Represents (share (decomposed names es)) (decomposed names es))
    (hlen : ∀ fuel dc, rawDecompose fuel share es (names.map .var) = some (.ok dc) → dc.length ≤ 2 ^ 32)
    (hpar : ∀ i, (∃ e ∈ es, Expr.Sub (.par i) e) → i < M) :
    ∃ N cf cf',
      (∀ fuel, N ≤ fuel → mkCFunc fuel M simd share nodes (names.map .var) batch false = some (.ok cf) ∧
        mkCFunc fuel M simd share nodes (names.map .var) batch true = some (.ok cf')) ∧
      SameFunction cf cf' := by
  obtain ⟨N, cf, cf', out, h1, h2, h3⟩ := mk_cfunc_compact (lib_name_sound hS) (lib_rewClosed S) (lib_llvm_sound hS)
    lib_code_sound M simd hM hsimd share nodes es names batch hnodes hne hnd hcov
    (fun e he => fnAll_of_good (built_ok (hb e he)).2) (fun e he => (built_ok (hb e he)).1) hsh hlen hpar
  exact ⟨N, cf, cf', h1, compiled_same hnd h2 h3⟩

/-- The number of functions gives a bound for the size of the decomposition. -/
theorem raw_size {share : List (Expr ℝ) → List (Node ℝ)} {es : List (Expr ℝ)} {names : List String}
    (hsh : Represents (share (decomposed names es)) (decomposed names es)) {fuel : Nat} {dc : List (Expr ℝ)}
    (h : rawDecompose fuel share es (names.map .var) = some (.ok dc)) :
    dc.length ≤ names.length + Expr.fnCountL (decomposed names es) + es.length := by
  have hv : varNames (names.map (Expr.var (K := ℝ))) = some names := varNames_map names
  rw [rawDecompose, hv] at h
  simp only at h
  split_ifs at h
  any_goals (cases h; done)
  have hd : (es.map fun e => renameIn (renMap names) (rewritesEval e)) = decomposed names es := rfl
  rw [hd] at h
  cases hr : decAll fdcAppend fuel [] [] (names.map .var) (share (decomposed names es)) with
  | none => rw [hr] at h; cases h
  | some r =>
    rw [hr] at h
    cases r with
    | ok p =>
      obtain ⟨d, o⟩ := p
      simp only [Option.map_some, Res.bind_ok] at h
      cases h
      obtain ⟨h1, h2⟩ := decAll_size fuel _ hr
      obtain ⟨_, _, _, _, _, h3⟩ := hsh
      rw [h3, List.length_map] at h1
      have h4 : (share (decomposed names es)).length = es.length := by
        have := congrArg List.length h3
        rw [List.length_map] at this
        rw [this, decomposed, List.length_map]
      rw [List.length_append]
      omega
    | throw => cases h
    | ub => cases h

/-- Two powers of different kinds, and a function of one of them, meet the hypotheses. -/
example : ∃ N cf cf', ∃ (share : List (Expr ℝ) → List (Node ℝ)) (nodes : List (Node ℝ)),
    Represents nodes [powE (.var "x") (.dbl 2), powE (.var "x") (.par 0), unaryE .exp (.var "x")] ∧
    (∀ fuel, N ≤ fuel → mkCFunc fuel 10 4 share nodes (["x"].map .var) none false = some (.ok cf) ∧
        mkCFunc fuel 10 4 share nodes (["x"].map .var) none true = some (.ok cf')) ∧
      SameFunction cf cf' := by
  obtain ⟨share, hs⟩ := exists_share
  let es : List (Expr ℝ) := [powE (.var "x") (.dbl 2), powE (.var "x") (.par 0), unaryE .exp (.var "x")]
  have hS : HexOk fun _ : ℝ => False := ⟨fun _ _ h => h.elim, fun _ h => h.elim⟩
  have hes : es = [.fn (.pow (.posInt 2)) [.var "x", .dbl 2], .fn (.pow .general) [.var "x", .par 0],
      .fn .exp [.var "x"]] := by
    have h2 : powAlgo (.dbl 2 : Expr ℝ) = .posInt 2 := by
      simp [powAlgo, exIsIntegral, Expr.dbl]
    have h3 : powAlgo (.par 0 : Expr ℝ) = .general := rfl
    simp only [Expr.dbl] at h2
    simp [es, powE, Expr.dbl, mkPow, unaryE, Num.isZero, Num.isOne, FVal.isZero, FVal.isOne, Num.dbl] at *
    simp [h2, h3]
  have hdc : Expr.fnCountL (decomposed ["x"] es) = 3 := by
    rw [hes]
    rfl
  obtain ⟨N, cf, cf', h1, h2⟩ := compact_mode_same hS 10 4 (by norm_num) (by norm_num) share (share es) es ["x"] none
    (hs es) (by simp [es]) (by simp) (by
      intro e he s hs
      rw [hes] at he
      simp only [List.mem_cons, List.not_mem_nil, or_false] at he
      rw [Expr.variables, mem_sortedSet] at hs
      rcases he with rfl | rfl | rfl <;>
        simp [Expr.leaves, Expr.leavesL, leafVar, List.filterMap_cons, Expr.dbl] at hs <;> simp [hs]) (by
      intro e he
      simp only [es, List.mem_cons, List.not_mem_nil, or_false] at he
      rcases he with rfl | rfl | rfl
      · exact .pow (.var _) (.num _)
      · exact .pow (.var _) (.par _)
      · exact .unary _ (by simp [unaryFns]) (.var _)) (hs _) (by
      intro fuel dc h
      refine (raw_size (hs _) h).trans ?_
      rw [hdc]
      simp [es]) (by
      rintro i ⟨e, he, hi⟩
      rw [hes] at he
      simp only [List.mem_cons, List.not_mem_nil, or_false] at he
      rcases he with rfl | rfl | rfl <;>
      · cases hi with
        | arg hb h =>
          simp only [List.mem_cons, List.not_mem_nil, or_false] at hb
          rcases hb with rfl | rfl <;> cases h <;> norm_num)
  exact ⟨N, cf, cf', share, share es, hs es, h1, h2⟩

end

/-! ### The two modes differ after a substitution -/

/-- Powers of rationals with small exponents. -/
def ratPow (b e : ℚ) : Option ℚ := if e = 2 then some (b * b) else if e = 3 then some (b * b * b) else none

/-- The meaning of a power does not depend on how it is evaluated. -/
local instance staleInterp : Interp ℚ where
  fold := fun _ _ => none
  app
    | .pow _, [b, e] => ratPow b e
    | _, _ => none

/-- The code: the exponent is known if the power is evaluated by multiplications. -/
local instance staleCode : CodeInterp ℚ where
  code
    | .pow (.posInt n), [b, _] => some (b ^ n)
    | .pow _, [b, e] => ratPow b e
    | _, _ => none

local instance staleFmt : FmtName ℚ := ⟨fun _ => ""⟩

/-- `subs(pow(x, y), {y: c})`: the function keeps the name given to it when `pow(x, y)` was constructed. -/
def staleEx (c : ℚ) : Expr ℚ :=
  (powE (.var "x") (.var "y")).mapNodes (subsLeaf fun s => if s = "y" then some (.dbl c) else none) id

/-- The function objects of `subs(pow(x, y), {y: 2})` and `subs(pow(x, y), {y: 3})`. -/
def staleNodes (x : String) : List (Node ℚ) :=
  [.fn 0 none (.pow .general) [.var x, .num (.dbl 2)], .fn 1 none (.pow .general) [.var x, .num (.dbl 3)]]

/-- The value of the function at `x = 2`, in default mode and in compact mode. -/
def staleRun (compact : Bool) : Option (Res (List (Option ℚ))) :=
  (mkCFunc 100 10 4 (fun _ => staleNodes "u_0") (staleNodes "x") [.var "x"] none compact).map fun r =>
    r.bind fun cf => singleEval cf [none, none] [2] none none

/-- C11 does not extend to expressions obtained by a substitution: two powers constructed with the same kind of exponent
have the same name, also after different numbers have been substituted for the exponents. In compact mode the code
generated for the first power is used for the second one too. -/
theorem compact_mode_differs_after_subs :
    (staleNodes "x").map Node.toExpr = [staleEx 2, staleEx 3] ∧
    staleRun false = some (.ok [some 4, some 8]) ∧
    staleRun true = some (.ok [some 4, some 4]) := by
  refine ⟨by with_unfolding_all rfl, ?_, ?_⟩ <;> decide +kernel

/-- The powers constructed directly have different names. -/
example : mangled (powE (.var "x") (.dbl 2) : Expr ℚ) ≠
      mangled (powE (.var "x") (.dbl 3) : Expr ℚ) ∧
    mangled (staleEx 2) = mangled (staleEx 3) := by
  refine ⟨?_, ?_⟩ <;> decide +kernel

/-- Merging: the same functions nested in another way have other names. -/
example : mangled (.fn .sum [.fn (.prod false) [.var "x", .par 0], .var "y"] : Expr ℚ) ≠
    mangled (.fn .sum [.var "x", .fn (.prod false) [.par 0, .var "y"]] : Expr ℚ) ∧
    compositeOk (.fn .sum [.fn (.prod false) [.var "x", .par 0], .var "y"] : Expr ℚ) = true ∧
    mangled (.fn .sum [.fn (.prod false) [.var "x", .par 0], .var "y"] : Expr ℚ) ≠ .throw ∧
    mangled (.fn .sum [.fn (.prod false) [.var "x", .par 0], .var "y"] : Expr ℚ) ≠ .ub := by
  refine ⟨?_, ?_, ?_, ?_⟩ <;> decide +kernel

/-- The hypotheses of `composite_value`. -/
example [FmtName ℝ] : (Expr.fn .sum [.fn (.prod false) [.var "x", .par 0], .dbl 3, .var "y"] : Expr ℝ).TreeOk
    (Fn.lib fun _ => False) False := by
  simp [treeOk_fn, Expr.dbl, Fn.lib, Fn.builtin, codeOf]
  exact ⟨⟨rfl, treeOk_leaf rfl, treeOk_leaf rfl⟩, treeOk_leaf rfl, treeOk_leaf rfl⟩

end Heyoka.Sym

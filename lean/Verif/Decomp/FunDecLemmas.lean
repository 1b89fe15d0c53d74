import Verif.Decomp.FunDec
import Verif.Expr.Heap

/-!
# Lemmas on the decomposition of functions
-/

set_option linter.unusedSectionVars false

namespace Heyoka.Sym

variable {K : Type}

/-! ### The evaluation does not use the values of the variables in the environment -/

section
variable [Field K] [LinearOrder K] [Interp K]

theorem argEval_env {v v' : Env K} (hp : v.par = v'.par) (arr : List (Option K)) (a : Expr K) :
    argEval v arr a = argEval v' arr a := by
  cases a <;> simp [argEval, hp]

theorem argsEval_env {v v' : Env K} (hp : v.par = v'.par) (arr : List (Option K)) (as : List (Expr K)) :
    argsEval v arr as = argsEval v' arr as := by
  induction as with
  | nil => rfl
  | cons a as ih => rw [argsEval, argsEval, argEval_env hp, ih]

theorem appO_env {v v' : Env K} (ht : v.time = v'.time) (f : Fn K) (xs : List (Option K)) :
    appO v f xs = appO v' f xs := by
  unfold appO
  split <;> simp [ht]

theorem runElems_env {v v' : Env K} (hp : v.par = v'.par) (ht : v.time = v'.time) (es : List (Expr K)) :
    ∀ arr, runElems v arr es = runElems v' arr es := by
  induction es with
  | nil => intro arr; rfl
  | cons e es ih =>
    intro arr
    have : elemEval v arr e = elemEval v' arr e := by
      cases e with
      | fn f args =>
        simp only [elemEval]
        rw [argsEval_env hp]
        congr 1
        funext xs
        rw [appO_env ht]
      | _ => rfl
    rw [runElems, runElems, this]
    congr 1
    funext x
    exact ih _

theorem runOuts_env {v v' : Env K} (hp : v.par = v'.par) (arr : List (Option K)) (es : List (Expr K)) :
    runOuts v arr es = runOuts v' arr es := by
  induction es with
  | nil => rfl
  | cons e es ih => cases e <;> simp [runOuts, ih, hp]

theorem evalDc_env {v v' : Env K} (hp : v.par = v'.par) (ht : v.time = v'.time) (nvars nouts : Nat)
    (ins : List K) (dc : List (Expr K)) : evalDc v nvars nouts ins dc = evalDc v' nvars nouts ins dc := by
  unfold evalDc
  rw [runElems_env hp ht]
  congr 2
  funext arr
  exact runOuts_env hp _ _

open Classical in
/-- The environment in which the variables `u_i` have the values `ins`. -/
noncomputable def insEnv (v : Env K) (ins : List K) : Env K :=
  { v with var := fun s => if h : ∃ i, s = uname i then ins.getD h.choose 0 else 0 }

theorem insEnv_var (v : Env K) (ins : List K) (i : Nat) : (insEnv v ins).var (uname i) = ins.getD i 0 := by
  have h : ∃ j, uname i = uname j := ⟨i, rfl⟩
  simp only [insEnv]
  rw [dif_pos h, uname_inj h.choose_spec.symm]

theorem insEnv_ins (v : Env K) (ins : List K) :
    (List.range ins.length).map (fun i => (insEnv v ins).var (uname i)) = ins := by
  refine List.ext_getElem (by simp) fun i h1 h2 => ?_
  simp only [List.getElem_map, List.getElem_range, insEnv_var]
  rw [List.getD_eq_getElem?_getD, List.getElem?_eq_getElem h2]
  rfl

/-- The value of a well-formed decomposition for arbitrary inputs. -/
theorem evalDc_ins {P : Fn K → Prop} {nvars nouts : Nat} {dc : List (Expr K)} (h : DcOk P nvars nouts dc)
    (hb : dc.length ≤ 2 ^ 32) (v : Env K) {ins : List K} (hi : ins.length = nvars) :
    ∃ val, Sat (insEnv v ins) nvars (dc.take (dc.length - nouts)) val ∧
      evalDc v nvars nouts ins dc = .ok ((dcOuts nouts dc).map (argV (insEnv v ins) val)) := by
  obtain ⟨val, hs⟩ := exists_sat (insEnv v ins) nvars _ h.wf
  refine ⟨val, hs, ?_⟩
  rw [evalDc_env (v := v) (v' := insEnv v ins) rfl rfl]
  have := evalDc_eq h hb hs
  rw [← hi, insEnv_ins v ins] at this
  rw [← hi]
  exact this

/-- Two decompositions whose outputs have the same values are compiled to the same function. -/
theorem evalDc_congr {P : Fn K → Prop} {nvars nouts : Nat} {dc dc' : List (Expr K)}
    (h : DcOk P nvars nouts dc) (h' : DcOk P nvars nouts dc') (hb : dc.length ≤ 2 ^ 32)
    (hb' : dc'.length ≤ 2 ^ 32)
    (hval : ∀ (v : Env K) (val val' : String → Option K), Sat v nvars (dc.take (dc.length - nouts)) val →
      Sat v nvars (dc'.take (dc'.length - nouts)) val' →
      (dcOuts nouts dc').map (argV v val') = (dcOuts nouts dc).map (argV v val))
    (v : Env K) {ins : List K} (hi : ins.length = nvars) :
    evalDc v nvars nouts ins dc' = evalDc v nvars nouts ins dc := by
  obtain ⟨val, h1, h2⟩ := evalDc_ins h hb v hi
  obtain ⟨val', h3, h4⟩ := evalDc_ins h' hb' v hi
  rw [h2, h4, hval _ _ _ h1 h3]

/-! ### Renaming of the variables -/

theorem eval_rename {P : Fn K → Prop} {Q : String → Prop} {R : Nat → Prop} {m : List (String × String)} {v v' : Env K}
    (hp : v'.par = v.par) (ht : v'.time = v.time)
    (hv : ∀ s, Q s → v'.var (renName (fun s => m.lookup s) s) = v.var s) {e : Expr K} (h : e.Good P Q R) :
    (renameIn m e).eval v' = e.eval v := by
  rw [renameIn]
  induction e using Expr.ind with
  | num n => simp [Expr.mapNodes, renameLeaf]
  | par i => simp [Expr.mapNodes, renameLeaf, hp]
  | var s =>
    simp only [Expr.mapNodes]
    rw [renameLeaf_var, Expr.eval_var, Expr.eval_var, hv s h]
  | fn f args ih =>
    rw [Expr.good_fn] at h
    rw [rename_fn, ← appO_eval, ← appO_eval, appO_env ht, List.map_map]
    congr 1
    exact List.map_congr_left fun a ha => ih a ha (h.2 a ha)

end

theorem varNames_eq {vars : List (Expr K)} {names : List String} (h : varNames vars = some names) :
    vars = names.map .var := by
  induction vars generalizing names with
  | nil => simp only [varNames, Option.some.injEq] at h; subst h; rfl
  | cons e es ih =>
    cases e with
    | var s =>
      simp only [varNames, Option.map_eq_some_iff] at h
      obtain ⟨l, hl, rfl⟩ := h
      rw [List.map_cons, ih hl]
    | _ => simp [varNames] at h

theorem renMap_lookup {names : List String} (hn : names.Nodup) {j : Nat} {s : String}
    (h : names[j]? = some s) : renName (fun s => (renMap names).lookup s) s = uname j := by
  simp only [renName]
  rw [lookup_of_nodup (b := uname j)]
  · rfl
  · rw [renMap, List.map_map]
    have : (Prod.fst ∘ fun p : String × Nat => (p.1, uname p.2)) = Prod.fst := rfl
    rw [this, List.zipIdx_map_fst]
    exact hn
  · refine List.mem_map.2 ⟨(s, j), ?_, rfl⟩
    refine List.mem_iff_getElem?.2 ⟨j, ?_⟩
    rw [List.getElem?_zipIdx, h]; simp

/-! ### Fuel -/

theorem kahnLoop_mono {fuel : Nat} : ∀ {es : List (Nat × Nat)} {q res : List Nat} {r},
    kahnLoop fuel es q res = some r → ∀ fuel', fuel ≤ fuel' → kahnLoop fuel' es q res = some r := by
  induction fuel with
  | zero =>
    intro es q res r h fuel' hf
    cases q with
    | nil => cases fuel' <;> simpa [kahnLoop] using h
    | cons v q => simp [kahnLoop] at h
  | succ fuel ih =>
    intro es q res r h fuel' hf
    obtain ⟨fuel', rfl⟩ : ∃ k, fuel' = k + 1 := ⟨fuel' - 1, by omega⟩
    cases q with
    | nil => simpa [kahnLoop] using h
    | cons v q =>
      rw [kahnLoop] at h ⊢
      exact ih h fuel' (by omega)

theorem sortDc_mono {fuel nvars nouts : Nat} {dc : List (Expr K)} {r}
    (h : sortDc fuel nvars nouts dc = some r) {fuel' : Nat} (hf : fuel ≤ fuel') :
    sortDc fuel' nvars nouts dc = some r := by
  unfold sortDc at h ⊢
  simp only at h ⊢
  cases hg : graphEdges nvars 0 (List.take (dc.length - nouts) dc) with
  | throw => rw [hg] at h; exact h
  | ub => rw [hg] at h; exact h
  | ok es =>
    rw [hg] at h
    simp only at h ⊢
    cases hk : kahnLoop fuel es [0] [] with
    | none => rw [hk] at h; cases h
    | some p =>
      rw [kahnLoop_mono hk fuel' hf]
      rw [hk] at h
      exact h

/-! ### Sharing -/

/-- The nodes are the unfoldings of references into a heap of function objects, and they represent the
given expressions. -/
def Represents (ns : List (Node K)) (es : List (Expr K)) : Prop :=
  ∃ (h : Heap K) (roots : List (Ref K)), h.Valid ∧ (∀ r ∈ roots, r.Below h.length) ∧
    ns = roots.map h.unfold ∧ ns.map Node.toExpr = es

/-- New objects do not change what the old references stand for. -/
theorem Heap.unfold_append {h d : Heap K} (hv : h.Valid) {r : Ref K} (hr : r.Below h.length) :
    (h ++ d).unfold r = h.unfold r := by
  have key : ∀ (n : Nat) (r : Ref K), r.Below h.length → (h ++ d).node n r = h.node n r := by
    intro n
    induction n with
    | zero => intro r hr; cases r <;> rfl
    | succ n ih =>
      intro r hr
      cases r with
      | obj i =>
        have hi : i < h.length := hr
        simp only [Heap.node]
        rw [List.getElem?_append_left hi, List.getElem?_eq_getElem hi]
        simp only [Node.fn.injEq, true_and]
        refine List.map_congr_left fun r' hr' => ih r' ?_
        have := hv.acyclic i _ (List.getElem?_eq_getElem hi) r' hr'
        cases r' with
        | obj k => simp only [Ref.Below] at this ⊢; omega
        | _ => trivial
      | _ => rfl
  rw [Heap.unfold, key _ _ hr]
  refine Heap.node_eq hv h.length _ _ r hr ?_ ?_ <;> simp; omega

/-- An expression can be built on top of any heap. -/
theorem build_expr (e : Expr K) : ∀ h : Heap K, h.Valid → ∃ (d : Heap K) (r : Ref K), (h ++ d).Valid ∧
    r.Below (h ++ d).length ∧ ((h ++ d).unfold r).toExpr = e := by
  induction e using Expr.ind with
  | num n => exact fun h hv => ⟨[], .num n, by simpa using hv, trivial, rfl⟩
  | var s => exact fun h hv => ⟨[], .var s, by simpa using hv, trivial, rfl⟩
  | par i => exact fun h hv => ⟨[], .par i, by simpa using hv, trivial, rfl⟩
  | fn f args ih =>
    have hL : ∀ l : List (Expr K), (∀ a ∈ l, a ∈ args) → ∀ h : Heap K, h.Valid →
        ∃ (d : Heap K) (rs : List (Ref K)), (h ++ d).Valid ∧ (∀ r ∈ rs, r.Below (h ++ d).length) ∧
          rs.map (fun r => ((h ++ d).unfold r).toExpr) = l := by
      intro l
      induction l with
      | nil => exact fun _ h hv => ⟨[], [], by simpa using hv, by simp, rfl⟩
      | cons a l ihl =>
        intro hm h hv
        obtain ⟨d1, r, v1, b1, e1⟩ := ih a (hm a List.mem_cons_self) h hv
        obtain ⟨d2, rs, v2, b2, e2⟩ := ihl (fun b hb => hm b (List.mem_cons_of_mem _ hb)) (h ++ d1) v1
        rw [List.append_assoc] at v2 b2 e2
        refine ⟨d1 ++ d2, r :: rs, v2, ?_, ?_⟩
        · intro r' hr'
          rcases List.mem_cons.1 hr' with rfl | hr'
          · cases r' with
            | obj k => simp only [Ref.Below, List.length_append] at b1 ⊢; omega
            | _ => trivial
          · exact b2 r' hr'
        · rw [List.map_cons, e2, ← List.append_assoc, Heap.unfold_append v1 b1, e1]
    intro h hv
    obtain ⟨d, rs, v1, b1, e1⟩ := hL args (fun _ h => h) h hv
    have hval : Heap.Valid (h ++ (d ++ [(⟨none, f, rs⟩ : Obj K)])) := by
      rw [← List.append_assoc]
      constructor
      · intro i o ho r hr
        rcases Nat.lt_or_ge i (h ++ d).length with hi | hi
        · rw [List.getElem?_append_left hi] at ho
          exact v1.acyclic i o ho r hr
        · rw [List.getElem?_append_right hi] at ho
          have h0 : i - (h ++ d).length = 0 := by
            by_contra hc
            rw [List.getElem?_eq_none (by rw [List.length_singleton]; omega)] at ho
            cases ho
          rw [h0] at ho
          cases ho
          have := b1 r hr
          cases r with
          | obj k => simp only [Ref.Below] at this ⊢; omega
          | _ => trivial
      · intro i j o o' k ho ho' hs hs'
        have hlt : ∀ (i : Nat) (o : Obj K), ((h ++ d) ++ [(⟨none, f, rs⟩ : Obj K)])[i]? = some o →
            o.sid = some k → (h ++ d)[i]? = some o := by
          intro i o ho hs
          rcases Nat.lt_or_ge i (h ++ d).length with hi | hi
          · rwa [List.getElem?_append_left hi] at ho
          · rw [List.getElem?_append_right hi] at ho
            have h0 : i - (h ++ d).length = 0 := by
              by_contra hc
              rw [List.getElem?_eq_none (by rw [List.length_singleton]; omega)] at ho
              cases ho
            rw [h0] at ho
            cases ho
            cases hs
        exact v1.shared i j o o' k (hlt i o ho hs) (hlt j o' ho' hs') hs hs'
    refine ⟨d ++ [⟨none, f, rs⟩], .obj (h ++ d).length, hval, by simp [Ref.Below], ?_⟩
    rw [Heap.unfold_obj hval (o := ⟨none, f, rs⟩)]
    · rw [Node.toExpr, Node.toExprL_eq_map, List.map_map]
      congr 1
      conv_rhs => rw [← e1]
      refine List.map_congr_left fun r hr => ?_
      simp only [Function.comp]
      rw [← List.append_assoc, Heap.unfold_append v1 (b1 r hr)]
    · rw [← List.append_assoc, List.getElem?_append_right (le_refl _)]
      simp

/-- Every list of expressions is represented by some heap. -/
theorem represents_exists (es : List (Expr K)) : ∃ ns, Represents ns es := by
  obtain ⟨d, r, v, b, e⟩ := build_expr (.fn .sum es) ([] : Heap K) ⟨by simp, by simp⟩
  rw [List.nil_append] at v b e
  cases r with
  | obj i =>
    have hi : i < d.length := b
    have ho : d[i]? = some d[i] := by simp
    rw [Heap.unfold_obj v ho, Node.toExpr, Node.toExprL_eq_map] at e
    refine ⟨_, d, d[i].args, v, fun r hr => ?_, rfl, (Expr.fn.inj e).2⟩
    have := v.acyclic i _ ho r hr
    cases r with
    | obj k => simp only [Ref.Below] at this ⊢; omega
    | _ => trivial
  | num n => simp [Heap.unfold, Heap.node, Node.toExpr] at e
  | var n => simp [Heap.unfold, Heap.node, Node.toExpr] at e
  | par n => simp [Heap.unfold, Heap.node, Node.toExpr] at e

theorem good_consistent {U : Node K → Prop} (hU : Consistent U) (P : Fn K → Prop) (Q : String → Prop)
    (R : Nat → Prop) : Consistent fun n => U n ∧ n.toExpr.Good P Q R where
  closed := fun {id sid f args} h a ha => ⟨hU.closed h.1 a ha, by
    have := h.2
    rw [Node.toExpr, Expr.good_fn, Node.toExprL_eq_map] at this
    exact this.2 _ (List.mem_map_of_mem ha)⟩
  id_inj := fun h h' => hU.id_inj h.1 h'.1
  sid_inj := fun h h' => hU.sid_inj h.1 h'.1

section
variable [Field K] [LinearOrder K] [Interp K]

/-- The decomposition of expressions whose variables are `u_0, …, u_{nvars - 1}`. -/
theorem decAll_append {P : Fn K → Prop} {vars : List (Expr K)} {ns : List (Node K)} {es : List (Expr K)}
    (hr : Represents ns es)
    (hg : ∀ e ∈ es, e.Good P (fun s => ∃ j, j < vars.length ∧ s = uname j) fun _ => True) :
    ∃ N d outs, (∀ fuel, N ≤ fuel → decAll fdcAppend fuel [] [] vars ns = some (.ok (vars ++ d, outs))) ∧
      DcOk P vars.length es.length ((vars ++ d) ++ outs) ∧ outs.length = es.length ∧
      ∀ (v : Env K) (val : String → Option K),
        Sat v vars.length (((vars ++ d) ++ outs).take (((vars ++ d) ++ outs).length - es.length)) val →
        (dcOuts es.length ((vars ++ d) ++ outs)).map (argV v val) = es.map fun e => e.eval v := by
  obtain ⟨h, roots, hv, hroots, rfl, hes⟩ := hr
  have hmem : ∀ n ∈ roots.map h.unfold, n.toExpr ∈ es := fun n hn => by
    rw [← hes]; exact List.mem_map_of_mem hn
  have hinv : WF P vars.length vars := ⟨le_refl _, fun i e he hi => by
    rw [List.getElem?_eq_none hi] at he; cases he⟩
  obtain ⟨N, d, outs, h1, h2, h3⟩ := (appendSpec P vars.length).decAll_eq
    (good_consistent (Heap.consistent hv) P (fun s => ∃ j, j < vars.length ∧ s = uname j) fun _ => True)
    (fun id sid f args hu => by
      have := hu.2
      rw [Node.toExpr, Expr.good_fn] at this
      exact ⟨this.1, fun s hs => this.2 _ hs⟩)
    (roots.map h.unfold) (fun n hn => by
      refine ⟨?_, hg _ (hmem n hn)⟩
      obtain ⟨r, hr, rfl⟩ := List.mem_map.1 hn
      exact ⟨r, hroots r hr, rfl⟩)
    [] [] vars hinv (by intro id r h; simp at h) (by intro k s h; simp at h)
  rw [hes] at h3
  have hl : outs.length = es.length := h3.length_eq
  have hleaves : LeavesOk vars.length es := fun s hs => hg _ hs
  have ht : ((vars ++ d) ++ outs).length - es.length = (vars ++ d).length := by
    rw [List.length_append, hl]; omega
  have ho : dcOuts es.length ((vars ++ d) ++ outs) = outs := by
    rw [dcOuts, ht, List.drop_left' rfl]
  refine ⟨N, d, outs, h1, ⟨by simp [hl], ?_, ?_⟩, hl, ?_⟩
  · rw [ht, List.take_left' rfl]; exact h2
  · rw [ho, ht]
    exact stands_argOk (by simp) h3 hleaves
  · intro v val hs
    rw [ht, List.take_left' rfl] at hs
    rw [ho]
    exact stands_val h3 hleaves hs

end

end Heyoka.Sym

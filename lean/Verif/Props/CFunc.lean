import Verif.CFunc.Lemmas
import Verif.CFunc.Class
import Verif.Compact.Real
import Verif.Props.Decompose
import Verif.Props.Query

/-!
# C13, C14: evaluation of compiled functions

Default mode and compact mode, exact arithmetic, arrays which do not overlap.
-/

set_option linter.unusedSectionVars false

namespace Heyoka.Sym

/-! ### Specification -/

section
variable {K : Type}

/-- The element in row `i` and column `k` of a row-major array. -/
def Arr2.at (a : Arr2 K) (i k : Nat) : Option K := a.data.bind fun l => l[i * a.cols + k]?

/-- The environment `v` has the values in the column `k` of the arrays. -/
structure ColumnEnv (names : List String) (ins : Arr2 K) (pars : Option (Arr2 K))
    (times : Option (List K)) (k : Nat) (v : Env K) : Prop where
  var : ∀ (i : Nat) (s : String), names[i]? = some s → ins.at i k = some (v.var s)
  par : ∀ p, pars = some p → ∀ i, i < p.rows → p.at i k = some (v.par i)
  time : ∀ t, times = some t → t[k]? = some v.time

/-- The shapes of the arrays are right for a function with `nvars` variables, `nouts` outputs, `nparams`
parameters. -/
structure ShapesOk (nvars nouts nparams : Nat) (timeDep : Prop) (outRows outCols : Nat) (inp : Arr2 K)
    (par : Option (Arr2 K)) (tm : Option (List K)) : Prop where
  outs : outRows = nouts
  ins : inp.rows = nvars ∧ inp.cols = outCols
  pars : ∀ p, par = some p → p.rows = nparams ∧ p.cols = outCols
  noPars : par = none → nparams = 0
  times : ∀ t, tm = some t → t.length = outCols
  noTimes : tm = none → ¬ timeDep

end

section
variable [FmtName ℝ] {P : Fn ℝ → Prop}

/-- The generated code can be called with any batch size and any strides. If the loads are inside the arrays, it does
not fail, and stores the values `out` for every lane, possibly not in order. -/
def Runs (names : List String) (cf : CFunc ℝ) (out : Env ℝ → List (Option ℝ)) : Prop :=
  ∀ (b stride o : Nat) (inp parp timep : Ptr ℝ) (vs : Nat → Env ℝ), 0 < b →
    (∀ j, j < cf.nvars → ∀ l, l < b → inp.load (stride * j + l) = .ok ((vs l).var (names.getD j ""))) →
    ParsOk b stride parp vs (· < cf.nparams) → TimeOk b timep vs (cf.timeDep = true) →
    ∃ ws, cf.call b stride o inp parp timep = .ok ws ∧
      ws.Perm (outWrites b stride o 0 ((List.range cf.nouts).map fun k l => ((out (vs l))[k]?).join))

/-- What is known about a compiled function for the expressions `es`; the code computes the values `out`. -/
structure Compiled (names : List String) (es : List (Expr ℝ)) (cf : CFunc ℝ) (out : Env ℝ → List (Option ℝ)) :
    Prop where
  nvars : cf.nvars = names.length
  nouts : cf.nouts = es.length
  batch : 0 < cf.batch
  params : IsLeast {n | ∀ i, (∃ e ∈ es, Expr.Sub (.par i) e) → i < n} cf.nparams
  time : cf.timeDep = true ↔ ∃ e ∈ es, ∃ as, Expr.Sub (.fn .time as) e
  values : ∀ v : Env ℝ, ValuesAt v es (out v)
  runs : Runs names cf out

theorem fnAll_time {e : Expr ℝ} (h : e.FnAll P) :
    ∀ {T : Prop}, ((∃ as, Expr.Sub (.fn .time as) e) → T) → e.FnAll fun f => P f ∧ (f = .time → T) := by
  induction e using Expr.ind with
  | fn f args ih =>
    intro T hT
    have h2 : P f ∧ Expr.FnAllL P args := h
    have hL : ∀ l : List (Expr ℝ), (∀ a ∈ l, a ∈ args) → Expr.FnAllL P l →
        Expr.FnAllL (fun f => P f ∧ (f = .time → T)) l := by
      intro l
      induction l with
      | nil => intro _ _; trivial
      | cons a l ihl =>
        intro hm hl
        exact ⟨ih a (hm a List.mem_cons_self) hl.1 fun ⟨as, hs⟩ =>
          hT ⟨as, .arg (hm a List.mem_cons_self) hs⟩, ihl (fun b hb => hm b (List.mem_cons_of_mem _ hb)) hl.2⟩
    exact ⟨⟨h2.1, fun hf => hT ⟨args, hf ▸ .refl⟩⟩, hL args (fun _ h => h) h2.2⟩
  | _ => intro _ _; trivial

theorem parsIn_of_sub {R : Nat → Prop} {e : Expr ℝ} (h : ∀ i, Expr.Sub (.par i) e → R i) : ParsIn R e := by
  induction e using Expr.ind with
  | fn f args ih => exact parsIn_fn.2 fun a ha => ih a ha fun i hi => h i (.arg ha hi)
  | par i => exact h i .refl
  | _ => trivial

/-- The first steps of the construction of a compiled function. -/
theorem decompose_cfunc (hP : NameSound P) (hR : RewClosed P) (M : Nat)
    (share : List (Expr ℝ) → List (Node ℝ)) (nodes : List (Node ℝ)) (es : List (Expr ℝ))
    (names : List String) (hnodes : Represents nodes es) (hne : es ≠ [])
    (hnd : names.Nodup)
    (hcov : ∀ e ∈ es, ∀ s, s ∈ e.variables → s ∈ names) (hg : ∀ e ∈ es, e.FnAll P)
    (hsh : Represents (share (decomposed names es)) (decomposed names es))
    (hlen : ∀ fuel dc, rawDecompose fuel share es (names.map .var) = some (.ok dc) → dc.length ≤ 2 ^ 32)
    (hpar : ∀ i, (∃ e ∈ es, Expr.Sub (.par i) e) → i < M) :
    ∃ N dc n b, nodes.map Node.toExpr = es ∧
      (∀ fuel, N ≤ fuel → functionDecompose fuel share es (names.map .var) = some (.ok dc) ∧
        getParamSize M fuel nodes = some (.ok n) ∧ isTimeDependent fuel nodes = some (.ok b)) ∧
      DcOk P names.length es.length dc ∧ dc.length ≤ 2 ^ 32 ∧
      IsLeast {n | ∀ i, (∃ e ∈ es, Expr.Sub (.par i) e) → i < n} n ∧
      (b = true ↔ ∃ e ∈ es, ∃ as, Expr.Sub (.fn .time as) e) ∧ (∀ e ∈ dc, ParsIn (· < n) e) ∧
      (∀ f args, .fn f args ∈ dcMid names.length es.length dc → f = .time → b = true) ∧
      ∀ v : Env ℝ, ∃ outs, evalDc v names.length es.length (names.map v.var) dc = .ok outs ∧ ValuesAt v es outs := by
  obtain ⟨h, roots, hv, hroots, rfl, hes⟩ := hnodes
  have hex : ∀ Q : Expr ℝ → Prop, (∃ r ∈ roots, Q (h.unfold r).toExpr) ↔ ∃ e ∈ es, Q e := by
    intro Q
    subst hes
    simp
  let T : Prop := ∃ e ∈ es, ∃ as, Expr.Sub (.fn .time as) e
  have hP' : NameSound fun f => P f ∧ (f = .time → T) := fun f g hf hg => hP f g hf.1 hg.1
  have hR' : RewClosed fun f => P f ∧ (f = .time → T) :=
    ⟨⟨hR.sum, fun h => by cases h⟩, fun b => ⟨hR.prod b, fun h => by cases h⟩,
      fun a => ⟨hR.pow a, fun h => by cases h⟩, ⟨hR.sub, fun h => by cases h⟩, ⟨hR.div, fun h => by cases h⟩,
      ⟨hR.sumSq, fun h => by cases h⟩, ⟨hR.exp, fun h => by cases h⟩, ⟨hR.log, fun h => by cases h⟩,
      ⟨hR.sin, fun h => by cases h⟩, ⟨hR.cos, fun h => by cases h⟩⟩
  have hg' : ∀ e ∈ es, e.FnAll fun f => P f ∧ (f = .time → T) := fun e he =>
    fnAll_time (hg e he) fun ht => ⟨e, he, ht⟩
  obtain ⟨N0, dc0, r1, r2⟩ := function_decompose_value hP' hR' share es names hne hnd hcov hg' hsh
  have hl0 := hlen N0 dc0 (r1 N0 (le_refl _))
  obtain ⟨N1, dc, d1, d2, d3, -, d4⟩ := r2 hl0
  obtain ⟨N2, hps⟩ := get_param_size_exact M h hv roots hroots
  obtain ⟨N3, b, t1, t2⟩ := is_time_dependent_exact h hv roots hroots
  rcases hps with ⟨⟨i, hi, hx⟩, -⟩ | ⟨-, n, p1, p2⟩
  · have := hpar i ((hex fun e => Expr.Sub (.par i) e).1 hx)
    omega
  have hnp : IsLeast {n | ∀ i, (∃ e ∈ es, Expr.Sub (.par i) e) → i < n} n := by
    have : {n | ∀ i, (∃ r ∈ roots, Expr.Sub (.par i) (h.unfold r).toExpr) → i < n} =
        {n | ∀ i, (∃ e ∈ es, Expr.Sub (.par i) e) → i < n} := by
      ext m
      refine forall_congr' fun i => ?_
      rw [hex fun e => Expr.Sub (.par i) e]
    rwa [this] at p2
  have hb : b = true ↔ T := by
    rw [t2]
    exact hex fun e => ∃ as, Expr.Sub (.fn .time as) e
  have hdcp : ∀ e ∈ dc, ParsIn (· < n) e :=
    functionDecompose_pars hsh (fun e he => parsIn_of_sub fun i hi => hnp.1 i ⟨e, he, hi⟩) d1
  refine ⟨max N1 (max N2 N3), dc, n, b, hes, fun fuel hf => ⟨d1 fuel (by omega), p1 fuel (by omega), t1 fuel (by omega)⟩,
    ⟨d2.len, ⟨d2.wf.len, fun i e he hn => ?_⟩, d2.outs⟩, by omega, hnp, hb, hdcp, ?_, d4⟩
  · obtain ⟨f, args, rfl, hf, h2⟩ := d2.wf.elem i e he hn
    exact ⟨f, args, rfl, hf.1, h2⟩
  · intro f args he hf
    obtain ⟨k, hk⟩ := List.mem_iff_getElem?.1 he
    have hl := d2.len
    have hk' : k < dc.length - es.length - names.length := by
      have := (List.getElem?_eq_some_iff.1 hk).1
      rw [dcMid, List.length_take] at this
      omega
    rw [dcMid, List.getElem?_take_of_lt hk', List.getElem?_drop] at hk
    obtain ⟨f', args', heq, hf', -⟩ := d2.wf.elem (names.length + k) _
      (by rw [List.getElem?_take_of_lt (by omega)]; exact hk) (by omega)
    cases heq
    exact hb.2 (hf'.2 hf)

theorem names_map (names : List String) (v : Env ℝ) :
    (List.range names.length).map (fun j => v.var (names.getD j "")) = names.map v.var := by
  refine List.ext_getElem? fun j => ?_
  rw [List.getElem?_map, List.getElem?_map]
  rcases Nat.lt_or_ge j names.length with hj | hj
  · simp [hj]
  · simp [List.getElem?_eq_none hj, List.getElem?_eq_none (show (List.range names.length).length ≤ j by simpa using hj)]

/-- Default mode. -/
theorem runs_default {names : List String} {nouts n : Nat} {t : Bool} {B : Nat} {dc : List (Expr ℝ)}
    {out : Env ℝ → List (Option ℝ)} (h : DcOk P names.length nouts dc)
    (hpars : ∀ e ∈ dc, ParsIn (· < n) e)
    (ht : ∀ f args, .fn f args ∈ dcMid names.length nouts dc → f = .time → t = true)
    (hout : ∀ v : Env ℝ, evalDc v names.length nouts (names.map v.var) dc = .ok (out v)) :
    Runs names ⟨names.length, nouts, n, t, B, dc, none⟩ out := by
  intro b stride o inp parp timep vs hb hi hp hti
  refine ⟨_, kernel_ok (Y := fun l => out (vs l)) hb h.len hi hp hti hpars (fun e he => ?_) fun l _ => ?_, .refl _⟩
  · unfold TimeIn
    split
    · exact ht _ _ he rfl
    · trivial
  · simp only
    rw [names_map]
    exact hout (vs l)

/-- Compact mode. -/
theorem runs_compact (hL : LlvmSound P) (hC : CodeSound P) {names : List String} {nouts n : Nat} {t : Bool} {B : Nat}
    {dc : List (Expr ℝ)} {out : Env ℝ → List (Option ℝ)} (h : DcOk P names.length nouts dc) (hl : dc.length ≤ 2 ^ 32)
    (hno : 0 < nouts) (hn : n ≤ 2 ^ 32) (hf : ∀ e ∈ dc, e.Fresh) (hpars : ∀ e ∈ dc, ParsIn (· < n) e)
    (ht : ∀ f args, .fn f args ∈ dcMid names.length nouts dc → f = .time → t = true)
    (hout : ∀ v : Env ℝ, evalDc v names.length nouts (names.map v.var) dc = .ok (out v)) :
    ∃ dc' pr, inlineDc names.length nouts dc = .ok dc' ∧ compile names.length nouts dc' = .ok pr ∧
      Runs names ⟨names.length, nouts, n, t, B, dc', some pr⟩ out := by
  obtain ⟨mid, outs, i1, i2, i3, i4, i5⟩ := inlineDc_ok (T := t = true) (R := (· < n)) hL h hl
    (fun f args hm => ⟨(fresh_fn.1 (hf _ (List.mem_of_mem_drop (List.mem_of_mem_take hm)))).1, ht f args hm⟩) hpars
  have hlen := h.len
  obtain ⟨pr, c1, c2⟩ := compile_ok (ins := dc.take names.length) hL hC (fun k hk => lt_of_lt_of_le hk hn)
    (by rw [List.length_take]; omega) i2 (by omega) i4
  refine ⟨_, pr, i1, c1, fun b stride o inp parp timep vs hb hi hp hti => ?_⟩
  let vs' : Nat → Env ℝ := fun l => insEnv (vs l) (names.map (vs l).var)
  have key : ∀ l, ∃ val', TreeSat (vs' l) names.length mid val' ∧ outs.map (argV (vs' l) val') = out (vs l) := by
    intro l
    obtain ⟨val, s1, s2⟩ := evalDc_ins h hl (vs l) (ins := names.map (vs l).var) (by simp)
    obtain ⟨val', s3, s4⟩ := i5 _ val s1
    rw [hout (vs l)] at s2
    injection s2 with s2
    exact ⟨val', s3, by rw [s4, s2]⟩
  choose val' k1 k2 using key
  obtain ⟨ws, w1, w2⟩ := c2 b stride o inp parp timep vs' val' (fun j l => (vs l).var (names.getD j "")) hi
    (fun j hj l _ => by
      rw [insEnv_var, List.getD_eq_getElem?_getD, List.getElem?_map, List.getD_eq_getElem?_getD,
        List.getElem?_eq_getElem hj]
      rfl) hp hti fun l _ => k1 l
  refine ⟨ws, w1, ?_⟩
  have : (outs.map fun a l => argV (vs' l) (val' l) a) =
      (List.range nouts).map fun k l => ((out (vs l))[k]?).join := by
    refine List.ext_getElem? fun k => ?_
    rw [List.getElem?_map, List.getElem?_map]
    rcases Nat.lt_or_ge k nouts with hk | hk
    · have hk' : k < outs.length := by omega
      rw [List.getElem?_eq_getElem hk', List.getElem?_range hk]
      simp only [Option.map_some, Option.some.injEq]
      funext l
      rw [← k2 l, List.getElem?_map, List.getElem?_eq_getElem hk']
      rfl
    · rw [List.getElem?_eq_none (by omega), List.getElem?_eq_none (by simpa using hk)]
      rfl
  rw [← this]
  exact w2

theorem batchOf_pos {simd : Nat} (hsimd : 0 < simd) (batch : Option Nat) : 0 < batchOf simd batch := by
  cases batch with
  | none => exact hsimd
  | some b =>
    show 0 < if b ≠ 0 then b else simd
    split_ifs with hb0
    · omega
    · exact hsimd

/-- The construction of a compiled function in default mode. -/
theorem mk_cfunc (hP : NameSound P) (hR : RewClosed P) (M simd : Nat) (hsimd : 0 < simd)
    (share : List (Expr ℝ) → List (Node ℝ)) (nodes : List (Node ℝ)) (es : List (Expr ℝ))
    (names : List String) (batch : Option Nat) (hnodes : Represents nodes es) (hne : es ≠ [])
    (hnd : names.Nodup)
    (hcov : ∀ e ∈ es, ∀ s, s ∈ e.variables → s ∈ names) (hg : ∀ e ∈ es, e.FnAll P)
    (hsh : Represents (share (decomposed names es)) (decomposed names es))
    (hlen : ∀ fuel dc, rawDecompose fuel share es (names.map .var) = some (.ok dc) → dc.length ≤ 2 ^ 32)
    (hpar : ∀ i, (∃ e ∈ es, Expr.Sub (.par i) e) → i < M) :
    ∃ N cf out, (∀ fuel, N ≤ fuel → mkCFunc fuel M simd share nodes (names.map .var) batch false = some (.ok cf)) ∧
      Compiled names es cf out := by
  obtain ⟨N, dc, n, b, h0, h1, h2, h3, h4, h5, h6, h7, h8⟩ := decompose_cfunc hP hR M share nodes es names hnodes hne
    hnd hcov hg hsh hlen hpar
  choose out o1 o2 using h8
  refine ⟨N, ⟨names.length, es.length, n, b, batchOf simd batch, dc, none⟩, out, fun fuel hf => ?_,
    ⟨rfl, rfl, batchOf_pos hsimd batch, h4, h5, o2, runs_default h2 h6 h7 o1⟩⟩
  obtain ⟨q1, q2, q3⟩ := h1 fuel hf
  unfold mkCFunc
  simp only
  rw [h0, q1, q2, q3]
  simp

/-- The construction of a compiled function in the two modes: for expressions in which the names of the functions
are up to date, the same values are computed. -/
theorem mk_cfunc_compact (hP : NameSound P) (hR : RewClosed P) (hL : LlvmSound P) (hC : CodeSound P) (M simd : Nat)
    (hM : M ≤ 2 ^ 32) (hsimd : 0 < simd)
    (share : List (Expr ℝ) → List (Node ℝ)) (nodes : List (Node ℝ)) (es : List (Expr ℝ))
    (names : List String) (batch : Option Nat) (hnodes : Represents nodes es) (hne : es ≠ [])
    (hnd : names.Nodup)
    (hcov : ∀ e ∈ es, ∀ s, s ∈ e.variables → s ∈ names) (hg : ∀ e ∈ es, e.FnAll P) (hfr : ∀ e ∈ es, e.Tidy)
    (hsh : Represents (share (decomposed names es)) (decomposed names es))
    (hlen : ∀ fuel dc, rawDecompose fuel share es (names.map .var) = some (.ok dc) → dc.length ≤ 2 ^ 32)
    (hpar : ∀ i, (∃ e ∈ es, Expr.Sub (.par i) e) → i < M) :
    ∃ N cf cf' out,
      (∀ fuel, N ≤ fuel → mkCFunc fuel M simd share nodes (names.map .var) batch false = some (.ok cf) ∧
        mkCFunc fuel M simd share nodes (names.map .var) batch true = some (.ok cf')) ∧
      Compiled names es cf out ∧ Compiled names es cf' out := by
  obtain ⟨N, dc, n, b, h0, h1, h2, h3, h4, h5, h6, h7, h8⟩ := decompose_cfunc hP hR M share nodes es names hnodes hne
    hnd hcov hg hsh hlen hpar
  choose out o1 o2 using h8
  have hn : n ≤ M := h4.2 fun i hi => hpar i hi
  obtain ⟨dc', pr, c1, c2, c3⟩ := runs_compact (B := batchOf simd batch) hL hC h2 h3 (List.length_pos_iff.2 hne) (by omega)
    (functionDecompose_fresh hsh hfr fun fuel hf => (h1 fuel hf).1) h6 h7 o1
  refine ⟨N, ⟨names.length, es.length, n, b, batchOf simd batch, dc, none⟩,
    ⟨names.length, es.length, n, b, batchOf simd batch, dc', some pr⟩, out, fun fuel hf => ?_,
    ⟨rfl, rfl, batchOf_pos hsimd batch, h4, h5, o2, runs_default h2 h6 h7 o1⟩,
    ⟨rfl, rfl, batchOf_pos hsimd batch, h4, h5, o2, c3⟩⟩
  obtain ⟨q1, q2, q3⟩ := h1 fuel hf
  unfold mkCFunc
  simp only
  rw [h0, q1, q2, q3]
  simp [c1, c2]

variable {names : List String} {es : List (Expr ℝ)} {cf : CFunc ℝ} {out : Env ℝ → List (Option ℝ)}

theorem load_of_at {K : Type} {a : Arr2 K} {i k l : Nat} {x : K} (h : a.at i (k + l) = some x) (hk : k ≤ a.cols)
    (hv : a.Valid) (hr : 0 < a.rows) :
    ∃ p : Ptr K, a.handle.adv k = .ok p ∧ p.load (a.cols * i + l) = .ok x := by
  cases hd : a.data with
  | none => simp [Arr2.at, hd] at h
  | some d =>
    simp only [Arr2.at, hd, Option.bind_some] at h
    simp only [Arr2.Valid, hd] at hv
    refine ⟨some (d, k), ?_, ?_⟩
    · simp only [Arr2.handle, hd, Option.map_some, Ptr.adv, Nat.zero_add]
      rw [if_pos]
      rw [hv]
      exact le_trans hk (Nat.le_mul_of_pos_left _ hr)
    · simp only [Ptr.load]
      rw [show k + (a.cols * i + l) = i * a.cols + (k + l) by rw [Nat.mul_comm]; omega, h]

/-- A call of a strided function. -/
theorem callAt_ok (hc : Compiled names es cf out) {rows cols : Nat} {ins : Arr2 ℝ}
    {pars : Option (Arr2 ℝ)} {times : Option (List ℝ)}
    (hs : ShapesOk cf.nvars cf.nouts cf.nparams (cf.timeDep = true) rows cols ins pars times)
    (hiv : ins.Valid) (hpv : ∀ p, pars = some p → p.Valid) {vs : Nat → Env ℝ}
    (hvs : ∀ k, k < cols → ColumnEnv names ins pars times k (vs k)) {b k : Nat} (hb : 0 < b) (hk : k + b ≤ cols) :
    ∃ ws, callAt cf b cols ins.handle (pars.bind Arr2.handle) (times.map fun t => (t, 0)) k = .ok ws ∧
      ws.Perm (colWrites cf.nouts cols (fun i c => ((out (vs c))[i]?).join) ((List.range b).map (k + ·))) := by
  have hin : ∃ ip, ptrIf (decide (0 < cf.nvars)) ins.handle k = .ok ip ∧
      ∀ j, j < cf.nvars → ∀ l, l < b → ip.load (cols * j + l) = .ok ((vs (k + l)).var (names.getD j "")) := by
    by_cases h0 : 0 < cf.nvars
    · have key : ∀ j, j < cf.nvars → ∀ l, l < b → ∃ p : Ptr ℝ, ins.handle.adv k = .ok p ∧
          p.load (cols * j + l) = .ok ((vs (k + l)).var (names.getD j "")) := by
        intro j hj l hl
        have hj' : j < names.length := by rw [← hc.nvars]; exact hj
        have := (hvs (k + l) (by omega)).var j names[j] (by simp [hj'])
        have h3 := load_of_at this (by rw [hs.ins.2]; omega) hiv (by rw [hs.ins.1]; exact h0)
        rw [hs.ins.2] at h3
        rw [List.getD_eq_getElem?_getD, List.getElem?_eq_getElem hj', Option.getD_some]
        exact h3
      obtain ⟨p, h1, -⟩ := key 0 h0 0 hb
      refine ⟨p, by rw [ptrIf, if_pos (by simpa using h0), h1], fun j hj l hl => ?_⟩
      obtain ⟨p', h2, h3⟩ := key j hj l hl
      rw [h1] at h2
      injection h2 with h2
      rw [h2]
      exact h3
    · exact ⟨none, by rw [ptrIf, if_neg (by simpa using h0)], fun j hj => absurd hj (by omega)⟩
  have hpa : ∃ pp, ptrIf (decide (0 < cf.nparams)) (pars.bind Arr2.handle) k = .ok pp ∧
      ParsOk b cols pp (fun l => vs (k + l)) (· < cf.nparams) := by
    by_cases h0 : 0 < cf.nparams
    · cases hp : pars with
      | none => have := hs.noPars hp; omega
      | some a =>
        have hsh := hs.pars a hp
        have key : ∀ i, i < cf.nparams → ∀ l, l < b → ∃ p : Ptr ℝ, a.handle.adv k = .ok p ∧
            p.load (cols * i + l) = .ok ((vs (k + l)).par i) := by
          intro i hi l hl
          have := (hvs (k + l) (by omega)).par a hp i (by rw [hsh.1]; exact hi)
          have h3 := load_of_at this (by rw [hsh.2]; omega) (hpv a hp) (by rw [hsh.1]; exact h0)
          rwa [hsh.2] at h3
        obtain ⟨p, h1, -⟩ := key 0 h0 0 hb
        refine ⟨p, by rw [ptrIf, if_pos (by simpa using h0)]; exact h1, fun i hi l hl => ?_⟩
        obtain ⟨p', h2, h3⟩ := key i hi l hl
        rw [h1] at h2
        injection h2 with h2
        rw [h2]
        exact h3
    · exact ⟨none, by rw [ptrIf, if_neg (by simpa using h0)], fun j hj => absurd hj (by omega)⟩
  have hti : ∃ tp, ptrIf cf.timeDep (times.map fun t => (t, 0)) k = .ok tp ∧
      TimeOk b tp (fun l => vs (k + l)) (cf.timeDep = true) := by
    by_cases h0 : cf.timeDep = true
    · cases ht : times with
      | none => exact absurd h0 (hs.noTimes ht)
      | some t =>
        have hlen := hs.times t ht
        refine ⟨some (t, k), ?_, fun _ l hl => ?_⟩
        · rw [ptrIf, if_pos h0, Option.map_some, Ptr.adv, Nat.zero_add, if_pos (by omega)]
        · have := (hvs (k + l) (by omega)).time t ht
          simp only [Ptr.load]
          rw [this]
    · exact ⟨none, by rw [ptrIf, if_neg h0], fun h => absurd h h0⟩
  obtain ⟨ip, i1, i2⟩ := hin
  obtain ⟨pp, p1, p2⟩ := hpa
  obtain ⟨tp, t1, t2⟩ := hti
  obtain ⟨ws, w1, w2⟩ := hc.runs b cols k ip pp tp (fun l => vs (k + l)) hb i2 p2 t2
  refine ⟨ws, by rw [callAt, i1, Res.bind_ok, p1, Res.bind_ok, t1, Res.bind_ok, w1], ?_⟩
  rw [← outWrites_colWrites (val := fun i c => ((out (vs c))[i]?).join) (Y := fun l => out (vs (k + l)))
    fun l _ i _ => rfl]
  exact w2

theorem multiCheck_iff {rows cols : Nat} {ins : Arr2 ℝ} {pars : Option (Arr2 ℝ)}
    {times : Option (List ℝ)} : multiCheck cf rows cols ins pars times = true ↔
      ShapesOk cf.nvars cf.nouts cf.nparams (cf.timeDep = true) rows cols ins pars times := by
  constructor
  · intro h
    cases pars <;> cases times <;>
      simp only [multiCheck, Bool.and_eq_true, Bool.not_eq_true', bne_eq_false_iff_eq, Bool.and_eq_false_iff,
        Option.isNone_none, Option.isNone_some, Bool.true_eq_false, or_false, or_true, and_true] at h <;>
      refine ⟨?_, ?_, ?_, ?_, ?_, ?_⟩ <;> intros <;> simp_all
  · intro h
    obtain ⟨h1, h2, h3, h4, h5, h6⟩ := h
    cases pars <;> cases times <;>
      simp [multiCheck, h1, h2] at h3 h4 h5 h6 ⊢ <;> simp_all

/-- The shapes of the arguments of `single_eval()` are right. -/
structure SingleOk (nvars nouts nparams : Nat) (timeDep : Prop) (out : List (Option ℝ)) (inp : List ℝ)
    (par : Option (List ℝ)) (time : Option ℝ) : Prop where
  outs : out.length = nouts
  ins : inp.length = nvars
  pars : ∀ p, par = some p → p.length = nparams
  noPars : par = none → nparams = 0
  noTime : time = none → ¬ timeDep

/-- C14: the evaluation at a single point throws if the shapes are not right. Otherwise it does not fail,
and yields (where they are defined) the values of the original expressions; by `multi_eval_columns`,
these are the same values as those computed for the column. The values stored where an expression is not defined
do not depend on the way in which the function is called. -/
theorem single_eval_value (hc : Compiled names es cf out) (arr : List (Option ℝ)) (ins : List ℝ)
    (pars : Option (List ℝ)) (time : Option ℝ) :
    (¬ SingleOk cf.nvars cf.nouts cf.nparams (cf.timeDep = true) arr ins pars time →
      singleEval cf arr ins pars time = .throw) ∧
    (SingleOk cf.nvars cf.nouts cf.nparams (cf.timeDep = true) arr ins pars time →
      ∀ v : Env ℝ, (∀ (i : Nat) (s : String), names[i]? = some s → ins[i]? = some (v.var s)) →
        (∀ p, pars = some p → ∀ i : Nat, i < p.length → p[i]? = some (v.par i)) →
        (∀ t, time = some t → t = v.time) →
        singleEval cf arr ins pars time = .ok (out v) ∧ ValuesAt v es (out v)) := by
  constructor
  · intro h
    unfold singleEval
    split_ifs with h1 h2 h3 h4 h5
    · rfl
    · rfl
    · rfl
    · rfl
    · rfl
    · exfalso
      refine h ⟨by simpa using h1, by simpa using h2, ?_, ?_, ?_⟩
      · intro p hp
        subst hp
        simpa [parsLenBad] using h4
      · intro hp
        subst hp
        simpa using h3
      · intro ht
        subst ht
        simpa using h5
  · intro hs v hv hp ht
    have e2 := hc.values v
    set col := out v with hcoldef
    have hk : ∃ ws, cf.call 1 1 0 (some (ins, 0)) (pars.map fun p => (p, 0))
        (time.map fun t => ([t], 0)) = .ok ws ∧ ws.Perm (outWrites 1 1 0 0
          ((List.range cf.nouts).map fun k l => (((fun _ => col) l)[k]?).join)) := by
      refine hc.runs 1 1 0 _ _ _ (fun _ => v) Nat.one_pos ?_ ?_ ?_
      · intro j hj l hl
        have hj' : j < names.length := by rw [← hc.nvars]; exact hj
        have := hv j names[j] (by simp [hj'])
        simp only [Ptr.load]
        rw [show 0 + (1 * j + l) = j by omega, this]
        simp [List.getElem?_eq_getElem hj']
      · intro i hi l hl
        cases hpp : pars with
        | none => have := hs.noPars hpp; omega
        | some p =>
          simp only [Option.map_some, Ptr.load]
          rw [show 0 + (1 * i + l) = i by omega, hp p hpp i (by rw [hs.pars p hpp]; exact hi)]
      · intro htd l hl
        cases htt : time with
        | none => exact absurd htd (hs.noTime htt)
        | some t =>
          have : l = 0 := by omega
          subst this
          simp [Ptr.load, ht t htt]
    have hcl : col.length = cf.nouts := by rw [e2.1, hc.nouts]
    obtain ⟨ws, hk, hwp⟩ := hk
    have hw := outWrites_colWrites (b := 1) (stride := 1) (o := 0) (nouts := cf.nouts) (Y := fun _ => col)
      (val := fun i _ => (col[i]?).join) fun _ _ _ _ => rfl
    rw [hw] at hwp
    have hcols : (List.range 1).map (0 + ·) = List.range 1 := rfl
    rw [hcols] at hwp
    have ha := colWrites_addr cf.nouts 1 fun i _ => (col[i]?).join
    obtain ⟨out', o1, o2, o3, -⟩ := applyW_ok ws
      arr (by rw [(hwp.map Prod.fst).nodup_iff, ha]; exact List.nodup_range) fun x hx => by
        have := List.mem_map_of_mem (f := Prod.fst) (hwp.mem_iff.1 hx)
        rw [ha] at this
        rw [hs.outs]
        simpa using List.mem_range.1 this
    have hcol : out' = col := by
      refine List.ext_getElem? fun i => ?_
      rcases Nat.lt_or_ge i cf.nouts with hi | hi
      · have hm : (0 + 1 * i, (col[i]?).join) ∈ colWrites cf.nouts 1 (fun i _ => (col[i]?).join) (List.range 1) := by
          simp only [colWrites, List.mem_flatMap, List.mem_map, List.mem_range]
          exact ⟨i, hi, 0, by omega, rfl⟩
        have := o3 _ (hwp.mem_iff.2 hm)
        simp only [Nat.zero_add, Nat.one_mul] at this
        rw [this]
        have hl : i < col.length := by omega
        simp [List.getElem?_eq_getElem hl]
      · rw [List.getElem?_eq_none (by rw [o2, hs.outs]; exact hi), List.getElem?_eq_none (by omega)]
    refine ⟨?_, e2⟩
    have c4 : parsLenBad cf pars = false := by
      cases hpp : pars with
      | none => rfl
      | some p => simpa [parsLenBad] using hs.pars p hpp
    have c3 : (cf.nparams != 0 && pars.isNone) = false := by
      cases hpp : pars with
      | none => simp [hs.noPars hpp]
      | some p => simp
    have c5 : (cf.timeDep && time.isNone) = false := by
      cases htt : time with
      | none => simpa using hs.noTime htt
      | some p => simp
    unfold singleEval
    rw [if_neg (by simp [hs.outs]), if_neg (by simp [hs.ins]), c3, c4, c5, hk]
    simp only [Bool.false_eq_true, if_false, Res.bind_ok]
    rw [o1, hcol]

/-- C13: the evaluation over several columns. Let the shapes of the arrays be right, and the environments
`vs k` have the values in the columns. Then the calls do not fail, every cell of the output array is written
exactly once, and nothing else is. For every interleaving of the stores of the calls, the column `k` of the
result is the result of the evaluation of the single column `k`, consisting of the values of the original
expressions (wherever these are defined). -/
theorem multi_eval_columns (hc : Compiled names es cf out) {rows cols : Nat} {ins : Arr2 ℝ}
    {pars : Option (Arr2 ℝ)} {times : Option (List ℝ)}
    (hs : ShapesOk cf.nvars cf.nouts cf.nparams (cf.timeDep = true) rows cols ins pars times)
    (hiv : ins.Valid) (hpv : ∀ p, pars = some p → p.Valid) {vs : Nat → Env ℝ}
    (hvs : ∀ k, k < cols → ColumnEnv names ins pars times k (vs k)) :
    ∃ ts, multiEval cf rows cols ins pars times = .ok ts ∧
      (ts.flatten.map Prod.fst).Perm (List.range (rows * cols)) ∧
      ∀ σ, Interleave ts σ → ∀ arr : List (Option ℝ), arr.length = rows * cols →
        ∃ out', applyW arr σ = .ok out' ∧ out'.length = rows * cols ∧ ∀ k, k < cols →
          ∃ col, singleEval cf (List.replicate cf.nouts none) (names.map (vs k).var)
              (some ((List.range cf.nparams).map (vs k).par)) (some (vs k).time) = .ok col ∧ col = out (vs k) ∧
            ValuesAt (vs k) es col ∧ ∀ i : Nat, i < rows → out'[i * cols + k]? = col[i]? := by
  let w := colWrites cf.nouts cols fun i c => ((out (vs c))[i]?).join
  let gw : Nat → Nat → List (Write ℝ) := fun b k =>
    match callAt cf b cols ins.handle (pars.bind Arr2.handle) (times.map fun t => (t, 0)) k with
    | .ok ws => ws
    | _ => []
  have hcall : ∀ {b k : Nat}, 0 < b → k + b ≤ cols →
      callAt cf b cols ins.handle (pars.bind Arr2.handle) (times.map fun t => (t, 0)) k = .ok (gw b k) ∧
        (gw b k).Perm (w ((List.range b).map (k + ·))) := fun {b k} hb hk => by
    obtain ⟨ws, h1, h2⟩ := callAt_ok hc hs hiv hpv hvs hb hk
    have : gw b k = ws := by simp only [gw, h1]
    rw [this]
    exact ⟨h1, h2⟩
  have hbp := hc.batch
  have hdm := Nat.div_mul_le_self cols cf.batch
  have hblock : ∀ k ∈ List.range (cols / cf.batch), k * cf.batch + cf.batch ≤ cols := by
    intro k hk
    have hk := List.mem_range.1 hk
    have : (k + 1) * cf.batch ≤ cols / cf.batch * cf.batch := Nat.mul_le_mul_right _ hk
    rw [Nat.succ_mul] at this
    omega
  have hrem : ∀ k ∈ remOffsets cols cf.batch, k + 1 ≤ cols := by
    intro k hk
    obtain ⟨j, hj, rfl⟩ := List.mem_map.1 hk
    have := List.mem_range.1 hj
    omega
  have h1 : resAll ((List.range (cols / cf.batch)).map fun k =>
      callAt cf cf.batch cols ins.handle (pars.bind Arr2.handle) (times.map fun t => (t, 0)) (k * cf.batch)) =
      .ok ((List.range (cols / cf.batch)).map fun k => gw cf.batch (k * cf.batch)) :=
    resAll_map _ fun k hk => (hcall hbp (hblock k hk)).1
  have h2 : resAll ((remOffsets cols cf.batch).map fun k =>
      callAt cf 1 cols ins.handle (pars.bind Arr2.handle) (times.map fun t => (t, 0)) k) =
      .ok ((remOffsets cols cf.batch).map fun k => gw 1 k) :=
    resAll_map _ fun k hk => (hcall Nat.one_pos (hrem k hk)).1
  have h3 := resAll_append h1 h2
  let css := ((List.range (cols / cf.batch)).map fun k => (List.range cf.batch).map (k * cf.batch + ·)) ++
      (remOffsets cols cf.batch).map fun k => (List.range 1).map (k + ·)
  have hcss : css.flatten = List.range cols := columns_flatten cols hbp
  let ts := ((List.range (cols / cf.batch)).map fun k => gw cf.batch (k * cf.batch)) ++
    (remOffsets cols cf.batch).map fun k => gw 1 k
  have h4 : multiEval cf rows cols ins pars times = .ok ts := by
    rw [multiEval, if_pos (multiCheck_iff.2 hs), multiTasks, if_neg (by omega), h3]
  have hts : ts.flatten.Perm (css.map w).flatten := by
    simp only [ts, css, List.map_append, List.map_map, List.flatten_append, ← List.flatMap_def]
    exact (List.Perm.flatMap_left _ fun k hk => (hcall hbp (hblock k hk)).2).append
      (List.Perm.flatMap_left _ fun k hk => (hcall Nat.one_pos (hrem k hk)).2)
  have hperm : ts.flatten.Perm (w (List.range cols)) := by
    refine hts.trans ?_
    rw [← hcss]
    exact colWrites_flatten css
  have haddr : (w (List.range cols)).map Prod.fst = List.range (rows * cols) := by
    rw [hs.outs]
    exact colWrites_addr _ _ _
  refine ⟨ts, h4, ?_, fun σ hσ arr harr => ?_⟩
  · rw [← haddr]
    exact hperm.map _
  · have hσp : σ.Perm (w (List.range cols)) := hσ.perm.trans hperm
    have hσa : (σ.map Prod.fst).Perm (List.range (rows * cols)) := by
      rw [← haddr]
      exact hσp.map _
    obtain ⟨out', o1, o2, o3, -⟩ := applyW_ok σ arr (hσa.nodup_iff.2 List.nodup_range) fun x hx => by
      have := hσa.mem_iff.1 (List.mem_map_of_mem hx)
      rw [harr]
      exact List.mem_range.1 this
    refine ⟨out', o1, by omega, fun k hk => ⟨out (vs k), ?_, rfl, hc.values _, fun i hi => ?_⟩⟩
    · refine ((single_eval_value hc _ _ _ _).2 ⟨by simp, by simp [hc.nvars], ?_, ?_, ?_⟩ (vs k) ?_ ?_ ?_).1
      · rintro p hp
        cases hp
        simp
      · intro h; cases h
      · intro h; cases h
      · intro i s hi
        rw [List.getElem?_map, hi]
        rfl
      · rintro p hp i hi
        cases hp
        have hi : i < cf.nparams := by simpa using hi
        simp [hi]
      · rintro t ht
        cases ht
        rfl
    have hm : (k + cols * i, ((out (vs k))[i]?).join) ∈ σ := by
      rw [hσp.mem_iff]
      simp only [w, colWrites, List.mem_flatMap, List.mem_map, List.mem_range]
      exact ⟨i, by rw [← hs.outs]; exact hi, k, hk, rfl⟩
    have := o3 _ hm
    rw [show i * cols + k = k + cols * i by rw [Nat.mul_comm]; omega, this]
    have hl : i < (out (vs k)).length := by rw [(hc.values (vs k)).1, ← hc.nouts, ← hs.outs]; exact hi
    simp [List.getElem?_eq_getElem hl]

/-- Environments holding the values of the columns of the arrays. -/
theorem column_envs {names : List String} {rows cols nouts nparams : Nat} {td : Prop} {ins : Arr2 ℝ}
    {pars : Option (Arr2 ℝ)} {times : Option (List ℝ)} (hnd : names.Nodup) (hiv : ins.Valid)
    (hpv : ∀ p, pars = some p → p.Valid) (hs : ShapesOk names.length nouts nparams td rows cols ins pars times) :
    ∃ vs : Nat → Env ℝ, ∀ k, k < cols → ColumnEnv names ins pars times k (vs k) := by
  have hvs : ∀ k, k < cols → ∃ v, ColumnEnv names ins pars times k v := by
    intro k hk
    have hat : ∀ (a : Arr2 ℝ), a.Valid → ∀ i, i < a.rows → k < a.cols → ∃ x, a.at i k = some x := by
      intro a ha i hi hka
      cases hd : a.data with
      | none =>
        simp only [Arr2.Valid, hd] at ha
        rcases Nat.mul_eq_zero.1 ha with h | h <;> omega
      | some d =>
        simp only [Arr2.Valid, hd] at ha
        have : i * a.cols + k < d.length := by
          rw [ha]
          have : (i + 1) * a.cols ≤ a.rows * a.cols := Nat.mul_le_mul_right _ hi
          rw [Nat.succ_mul] at this
          omega
        exact ⟨d[i * a.cols + k], by simp [Arr2.at, hd, this]⟩
    refine ⟨⟨fun s => (ins.at (names.idxOf s) k).getD 0, fun i => (pars.bind fun p => p.at i k).getD 0,
      (times.bind fun t => t[k]?).getD 0⟩, fun i s hi => ?_, fun p hp i hi => ?_, fun t ht => ?_⟩
    · have hil := (List.getElem?_eq_some_iff.1 hi)
      have : names.idxOf s = i := by
        rw [← hil.2]
        exact hnd.idxOf_getElem i hil.1
      simp only [this]
      obtain ⟨x, hx⟩ := hat ins hiv i (by rw [hs.ins.1]; exact hil.1) (by rw [hs.ins.2]; exact hk)
      rw [hx]
      rfl
    · obtain ⟨x, hx⟩ := hat p (hpv p hp) i hi (by rw [(hs.pars p hp).2]; exact hk)
      simp [hp, hx]
    · have : k < t.length := by rw [hs.times t ht]; exact hk
      simp [ht, this]
  refine ⟨fun k => if h : k < cols then (hvs k h).choose else ⟨fun _ => 0, fun _ => 0, 0⟩, fun k hk => ?_⟩
  simp only [hk, dif_pos]
  exact (hvs k hk).choose_spec

/-- C14: `multi_eval()` throws if and only if the shapes of the arrays are not right. Otherwise (by
`multi_eval_columns`) all the accesses lie inside the arrays. -/
theorem multi_eval_throws (hc : Compiled names es cf out) {rows cols : Nat} {ins : Arr2 ℝ}
    {pars : Option (Arr2 ℝ)} {times : Option (List ℝ)} (hiv : ins.Valid)
    (hpv : ∀ p, pars = some p → p.Valid) (hnd : names.Nodup) :
    (multiEval cf rows cols ins pars times = .throw ↔
      ¬ ShapesOk cf.nvars cf.nouts cf.nparams (cf.timeDep = true) rows cols ins pars times) ∧
    multiEval cf rows cols ins pars times ≠ .ub := by
  by_cases hs : ShapesOk cf.nvars cf.nouts cf.nparams (cf.timeDep = true) rows cols ins pars times
  · obtain ⟨vs, hvs⟩ := column_envs (names := names) (times := times) hnd hiv hpv (by rw [← hc.nvars]; exact hs)
    obtain ⟨ts, h1, -⟩ := multi_eval_columns hc hs hiv hpv hvs
    rw [h1]
    exact ⟨⟨(fun h => by cases h), fun h => absurd hs h⟩, fun h => by cases h⟩
  · have : multiEval cf rows cols ins pars times = .throw := by
      rw [multiEval, if_neg fun h => hs (multiCheck_iff.1 h)]
    rw [this]
    exact ⟨⟨fun _ => hs, fun _ => rfl⟩, fun h => by cases h⟩

end

/-! ### Examples -/

/-- The compiled function for `x + par[0]`, with batch size 2. -/
def exampleCFunc (K : Type) : CFunc K :=
  ⟨1, 1, 1, false, 2, [.var "x", .fn .sum [.var "u_0", .par 0], .var "u_1"], none⟩

/-- The hypothesis of the theorems above is met. -/
theorem example_compiled [FmtName ℝ] : Compiled ["x"] [.fn .sum [.var "x", .par 0]] (exampleCFunc ℝ)
    fun v => [some (v.var "x" + v.par 0)] := by
  have hu0 : unameToIndex "u_0" = .ok 0 := by with_unfolding_all rfl
  have hu1 : unameToIndex "u_1" = .ok 1 := by with_unfolding_all rfl
  have n0 : "u_0" = uname 0 := by decide +kernel
  have n1 : "u_1" = uname 1 := by decide +kernel
  refine ⟨rfl, rfl, by decide, ⟨?_, ?_⟩, ?_, ?_, ?_⟩
  · rintro i ⟨e, he, hs⟩
    rw [List.mem_singleton] at he
    subst he
    cases hs with
    | arg hm hs =>
      simp only [List.mem_cons, List.not_mem_nil, or_false] at hm
      rcases hm with rfl | rfl <;> cases hs
      decide
  · intro n hn
    exact hn 0 ⟨_, List.mem_singleton_self _, .arg (by simp) .refl⟩
  · refine ⟨(fun h => by cases h), ?_⟩
    rintro ⟨e, he, as, hs⟩
    rw [List.mem_singleton] at he
    subst he
    cases hs with
    | arg hm hs =>
      simp only [List.mem_cons, List.not_mem_nil, or_false] at hm
      rcases hm with rfl | rfl <;> cases hs
  · intro v
    refine ⟨rfl, fun k e x hk hx => ?_⟩
    match k, hk with
    | 0, hk =>
      cases hk
      simpa [Expr.eval, Expr.evalL, app_def, realApp] using hx
    | k + 1, hk => simp at hk
  · refine runs_default (names := ["x"]) (nouts := 1) (P := fun _ => True) ⟨by decide, ⟨by decide, fun i e he hn => ?_⟩, ?_⟩ ?_ ?_ ?_
    · match i, he, hn with
      | 0, _, hn => simp at hn
      | 1, he, _ =>
        cases he
        refine ⟨_, _, rfl, trivial, fun a ha => ?_⟩
        simp only [List.mem_cons, List.not_mem_nil, or_false] at ha
        rcases ha with rfl | rfl
        · exact ⟨0, by decide, n0⟩
        · trivial
      | k + 2, he, _ => simp at he
    · intro a ha
      simp only [dcOuts, List.length_cons, List.length_nil, List.drop_succ_cons, List.drop_zero,
        List.mem_singleton] at ha
      subst ha
      exact ⟨1, by decide, n1⟩
    · intro e he
      simp only [List.mem_cons, List.not_mem_nil, or_false] at he
      rcases he with rfl | rfl | rfl
      · trivial
      · refine parsIn_fn.2 fun a ha => ?_
        simp only [List.mem_cons, List.not_mem_nil, or_false] at ha
        rcases ha with rfl | rfl
        · trivial
        · exact Nat.one_pos
      · trivial
    · intro f args he hf
      simp only [dcMid, List.length_cons, List.length_nil, List.drop_succ_cons, List.drop_zero,
        List.take_succ_cons, List.take_zero, List.mem_singleton] at he
      cases he
      cases hf
    · intro v
      simp [evalDc, dcMid, dcOuts, runElems, runOuts, elemEval, argsEval, argEval, hu0, hu1, appO,
        allSome, app_def, realApp]

/-- Sums of rationals. -/
local instance cfuncInterp : Interp ℚ where
  fold := fun _ _ => none
  app
    | .sum, xs => some xs.sum
    | _, _ => none

local instance cfuncCode : CodeInterp ℚ := ⟨Interp.app⟩

/-- Three columns with batch size 2: one block, one single column. Another interleaving of the stores gives
the same result. -/
example : multiEval (exampleCFunc ℚ) 1 3 ⟨1, 3, some [1, 2, 3]⟩ (some ⟨1, 3, some [10, 20, 30]⟩) none =
      .ok [[(0, some 11), (1, some 22)], [(2, some 33)]] ∧
    Interleave [[(0, some (11 : ℚ)), (1, some 22)], [(2, some 33)]]
      [(0, some 11), (2, some 33), (1, some 22)] ∧
    applyW [none, none, none] [(0, some (11 : ℚ)), (2, some 33), (1, some 22)] =
      .ok [some 11, some 22, some 33] := by
  refine ⟨by with_unfolding_all rfl, ?_, by with_unfolding_all rfl⟩
  exact .step (i := 0) rfl (.step (i := 1) rfl (.step (i := 0) rfl (.done (by simp))))

/-- Missing parameters, a wrong number of columns. -/
example : multiEval (exampleCFunc ℚ) 1 3 ⟨1, 3, some [1, 2, 3]⟩ none none = .throw ∧
    multiEval (exampleCFunc ℚ) 1 2 ⟨1, 3, some [1, 2, 3]⟩ (some ⟨1, 3, some [10, 20, 30]⟩) none = .throw ∧
    singleEval (exampleCFunc ℚ) [none] [1] (some [10]) none = .ok [some 11] ∧
    singleEval (exampleCFunc ℚ) [none] [1, 2] (some [10]) none = .throw := by
  refine ⟨?_, ?_, ?_, ?_⟩ <;> with_unfolding_all rfl

end Heyoka.Sym

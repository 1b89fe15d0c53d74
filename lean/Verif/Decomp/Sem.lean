import Verif.Decomp.Model
import Verif.Expr.OrderNode
import Mathlib.Data.List.Induction

/-!
# The meaning of a decomposition

A valuation of the names satisfies a decomposition if every `u` variable has the value of its
definition.
-/

set_option linter.unusedSectionVars false

namespace Heyoka.Sym

variable {K : Type}

/-- An argument in the definition of the `i`-th element: a number, a parameter or an earlier `u`
variable (`verify_function_dec()`, `src/expression_cfunc.cpp` 113-195). -/
def ArgOk (i : Nat) : Expr K → Prop
  | .var s => ∃ j, j < i ∧ s = uname j
  | .fn _ _ => False
  | _ => True

theorem ArgOk.mono {i j : Nat} (h : i ≤ j) {a : Expr K} (ha : ArgOk i a) : ArgOk j a := by
  cases a with
  | var s =>
    obtain ⟨k, hk, rfl⟩ := ha
    exact ⟨k, by omega, rfl⟩
  | fn f as => exact ha
  | _ => trivial

/-- A decomposition (without the outputs) is well-formed: after the variables there are functions whose
arguments are numbers, parameters or earlier elements. `P` is satisfied by the function symbols. -/
structure WF (P : Fn K → Prop) (nvars : Nat) (dc : List (Expr K)) : Prop where
  len : nvars ≤ dc.length
  elem : ∀ (i : Nat) (e : Expr K), dc[i]? = some e → nvars ≤ i →
    ∃ f args, e = .fn f args ∧ P f ∧ ∀ a ∈ args, ArgOk i a

/-- A decomposition with outputs is well-formed. -/
structure DcOk (P : Fn K → Prop) (nvars nouts : Nat) (dc : List (Expr K)) : Prop where
  len : nvars + nouts ≤ dc.length
  wf : WF P nvars (dc.take (dc.length - nouts))
  outs : ∀ a ∈ dcOuts nouts dc, ArgOk (dc.length - nouts) a

section
variable [Field K] [LinearOrder K] [Interp K]

/-- The value of an argument. -/
def argV (v : Env K) (val : String → Option K) : Expr K → Option K
  | .var s => val s
  | .num n => n.toK?
  | .par i => some (v.par i)
  | .fn _ _ => none

/-- The value of an element. -/
def elemV (v : Env K) (val : String → Option K) : Expr K → Option K
  | .fn f args => appO v f (args.map (argV v val))
  | _ => none

/-- The valuation `val` satisfies the decomposition `dc` with the inputs given by `v`. -/
structure Sat (v : Env K) (nvars : Nat) (dc : List (Expr K)) (val : String → Option K) : Prop where
  ins : ∀ i, i < nvars → val (uname i) = some (v.var (uname i))
  elem : ∀ (i : Nat) (e : Expr K), dc[i]? = some e → nvars ≤ i → val (uname i) = elemV v val e

theorem Sat.prefix {v : Env K} {nvars : Nat} {dc d : List (Expr K)} {val : String → Option K}
    (h : Sat v nvars (dc ++ d) val) : Sat v nvars dc val := by
  refine ⟨h.ins, fun i e he hi => h.elem i e ?_ hi⟩
  rw [List.getElem?_append_left]
  · exact he
  · by_contra hc
    rw [List.getElem?_eq_none (by omega)] at he
    cases he

theorem argV_congr {v : Env K} {val val' : String → Option K} {i : Nat} {a : Expr K} (ha : ArgOk i a)
    (h : ∀ j, j < i → val (uname j) = val' (uname j)) : argV v val a = argV v val' a := by
  cases a with
  | var s =>
    obtain ⟨j, hj, rfl⟩ := ha
    exact h j hj
  | _ => rfl

theorem elemV_congr {v : Env K} {val val' : String → Option K} {i : Nat} {f : Fn K}
    {args : List (Expr K)} (ha : ∀ a ∈ args, ArgOk i a)
    (h : ∀ j, j < i → val (uname j) = val' (uname j)) :
    elemV v val (.fn f args) = elemV v val' (.fn f args) := by
  simp only [elemV]
  congr 1
  exact List.map_congr_left fun a hm => argV_congr (ha a hm) h

theorem WF.prefix {P : Fn K → Prop} {nvars : Nat} {dc d : List (Expr K)} (h : WF P nvars (dc ++ d))
    (hl : nvars ≤ dc.length) : WF P nvars dc := by
  refine ⟨hl, fun i e he hi => h.elem i e ?_ hi⟩
  rw [List.getElem?_append_left]
  · exact he
  · by_contra hc
    rw [List.getElem?_eq_none (by omega)] at he
    cases he

theorem WF.snoc {P : Fn K → Prop} {nvars : Nat} {dc : List (Expr K)} (h : WF P nvars dc) {f : Fn K}
    {args : List (Expr K)} (hf : P f) (ha : ∀ a ∈ args, ArgOk dc.length a) :
    WF P nvars (dc ++ [.fn f args]) := by
  refine ⟨by simp; have := h.len; omega, fun i e he hi => ?_⟩
  rcases Nat.lt_or_ge i dc.length with hlt | hge
  · rw [List.getElem?_append_left hlt] at he
    exact h.elem i e he hi
  · rw [List.getElem?_append_right hge] at he
    obtain ⟨hi0, rfl⟩ : i = dc.length ∧ e = .fn f args := by
      cases hk : i - dc.length with
      | zero => rw [hk] at he; simp at he; exact ⟨by omega, he.symm⟩
      | succ k => rw [hk] at he; simp at he
    exact ⟨f, args, rfl, hf, hi0 ▸ ha⟩

/-- Every well-formed decomposition is satisfied by some valuation. -/
theorem exists_sat {P : Fn K → Prop} (v : Env K) (nvars : Nat) (dc : List (Expr K))
    (h : WF P nvars dc) : ∃ val, Sat v nvars dc val := by
  have key : ∀ (d : List (Expr K)) (pre : List (Expr K)), pre.length = nvars → WF P nvars (pre ++ d) →
      ∃ val, Sat v nvars (pre ++ d) val := by
    intro d
    induction d using List.reverseRecOn with
    | nil =>
      intro pre hp _
      refine ⟨fun s => some (v.var s), fun i _ => rfl, fun i e he hi => ?_⟩
      rw [List.append_nil, List.getElem?_eq_none (by omega)] at he
      cases he
    | append_singleton d e ih =>
      intro pre hp hw
      rw [← List.append_assoc] at hw ⊢
      obtain ⟨val, hval⟩ := ih pre hp (hw.prefix (by simp; omega))
      obtain ⟨f, args, rfl, hf, ha⟩ := hw.elem (pre ++ d).length e (by simp) (by simp; omega)
      have hup : ∀ j, j < (pre ++ d).length →
          Function.update val (uname (pre ++ d).length) (elemV v val (.fn f args)) (uname j) =
            val (uname j) := by
        intro j hj
        rw [Function.update_of_ne]
        intro hc
        have := uname_inj hc
        omega
      refine ⟨Function.update val (uname (pre ++ d).length) (elemV v val (.fn f args)), ?_, ?_⟩
      · intro i hi
        rw [hup i (by simp; omega)]
        exact hval.ins i hi
      · intro i e he hi
        rcases Nat.lt_or_ge i (pre ++ d).length with hlt | hge
        · rw [hup i hlt]
          rw [List.getElem?_append_left hlt] at he
          rw [hval.elem i e he hi]
          obtain ⟨g, bs, rfl, -, hb⟩ := (hw.prefix (by simp; omega)).elem i e he hi
          exact (elemV_congr hb fun j hj => hup j (by omega)).symm
        · rw [List.getElem?_append_right hge] at he
          obtain ⟨hi0, rfl⟩ : i = (pre ++ d).length ∧ e = .fn f args := by
            cases hk : i - (pre ++ d).length with
            | zero => rw [hk] at he; simp at he; exact ⟨by omega, he.symm⟩
            | succ k => rw [hk] at he; simp at he
          subst hi0
          rw [Function.update_self]
          exact (elemV_congr ha hup).symm
  have := key (dc.drop nvars) (dc.take nvars) (by simp; exact h.len) (by simpa using h)
  simpa using this

/-- The values of the elements are unique. -/
theorem sat_unique {P : Fn K → Prop} {v : Env K} {nvars : Nat} {dc : List (Expr K)} (h : WF P nvars dc)
    {val val' : String → Option K} (hs : Sat v nvars dc val) (hs' : Sat v nvars dc val') :
    ∀ i, i < dc.length → val (uname i) = val' (uname i) := by
  intro i
  induction i using Nat.strong_induction_on with
  | _ i ih =>
    intro hi
    by_cases hn : i < nvars
    · rw [hs.ins i hn, hs'.ins i hn]
    · obtain ⟨f, args, he, -, ha⟩ := h.elem i dc[i] (by simp) (by omega)
      rw [hs.elem i dc[i] (by simp) (by omega), hs'.elem i dc[i] (by simp) (by omega), he]
      exact elemV_congr ha fun j hj => ih j hj (by omega)

/-! ### Evaluation by the compiled code -/

theorem argEval_eq {v : Env K} {val : String → Option K} {i : Nat} (hi : i ≤ 2 ^ 32) {a : Expr K}
    (ha : ArgOk i a) :
    argEval v ((List.range i).map fun j => val (uname j)) a = .ok (argV v val a) := by
  cases a with
  | var s =>
    obtain ⟨j, hj, rfl⟩ := ha
    simp only [argEval, unameToIndex_uname, argV]
    rw [if_pos (by omega)]
    simp [hj]
  | fn f as => exact absurd ha (by simp [ArgOk])
  | num n => rfl
  | par n => rfl

theorem argsEval_eq {v : Env K} {val : String → Option K} {i : Nat} (hi : i ≤ 2 ^ 32)
    {as : List (Expr K)} (ha : ∀ a ∈ as, ArgOk i a) :
    argsEval v ((List.range i).map fun j => val (uname j)) as = .ok (as.map (argV v val)) := by
  induction as with
  | nil => rfl
  | cons a as ih =>
    simp [argsEval, argEval_eq hi (ha a List.mem_cons_self),
      ih fun b hb => ha b (List.mem_cons_of_mem _ hb)]

theorem runElems_eq {P : Fn K → Prop} {v : Env K} {nvars : Nat} {dc : List (Expr K)}
    (h : WF P nvars dc) (hb : dc.length ≤ 2 ^ 32) {val : String → Option K} (hs : Sat v nvars dc val) :
    ∀ k i, i + k = dc.length → nvars ≤ i →
      runElems v ((List.range i).map fun j => val (uname j)) (dc.drop i) =
        .ok ((List.range dc.length).map fun j => val (uname j)) := by
  intro k
  induction k with
  | zero =>
    intro i hi hn
    rw [List.drop_eq_nil_of_le (by omega), runElems]
    rw [show i = dc.length by omega]
  | succ k ih =>
    intro i hi hn
    rw [List.drop_eq_getElem_cons (by omega), runElems]
    obtain ⟨f, args, he, -, ha⟩ := h.elem i dc[i] (by simp) hn
    have h1 : elemEval v ((List.range i).map fun j => val (uname j)) dc[i] =
        .ok (val (uname i)) := by
      rw [hs.elem i dc[i] (by simp) hn, he, elemEval, argsEval_eq (by omega) ha]
      rfl
    rw [h1, Res.bind_ok]
    have h2 := ih (i + 1) (by omega) (by omega)
    rw [List.range_succ, List.map_append] at h2
    exact h2

theorem runOuts_eq {v : Env K} {val : String → Option K} {i : Nat} (hi : i ≤ 2 ^ 32)
    {as : List (Expr K)} (ha : ∀ a ∈ as, ArgOk i a) :
    runOuts v ((List.range i).map fun j => val (uname j)) as = .ok (as.map (argV v val)) := by
  induction as with
  | nil => rfl
  | cons a as ih =>
    have h1 := ih fun b hb => ha b (List.mem_cons_of_mem _ hb)
    have h2 := ha a List.mem_cons_self
    cases a with
    | var s =>
      obtain ⟨j, hj, rfl⟩ := h2
      simp only [runOuts, unameToIndex_uname]
      rw [if_pos (by omega)]
      simp [hj, h1, argV]
    | fn f as => exact absurd h2 (by simp [ArgOk])
    | num n => simp [runOuts, h1, argV]
    | par n => simp [runOuts, h1, argV]

/-- The compiled code computes the values of the outputs under the valuation satisfying the
decomposition. -/
theorem evalDc_eq {P : Fn K → Prop} {v : Env K} {nvars nouts : Nat} {dc : List (Expr K)}
    (h : DcOk P nvars nouts dc) (hb : dc.length ≤ 2 ^ 32) {val : String → Option K}
    (hs : Sat v nvars (dc.take (dc.length - nouts)) val) :
    evalDc v nvars nouts ((List.range nvars).map fun i => v.var (uname i)) dc =
      .ok ((dcOuts nouts dc).map (argV v val)) := by
  have hl := h.len
  have h1 : (dc.take (dc.length - nouts)).length = dc.length - nouts := by simp
  have h2 : dcMid nvars nouts dc = (dc.take (dc.length - nouts)).drop nvars := by
    rw [dcMid, List.drop_take]
  have h3 : ((List.range nvars).map fun i => v.var (uname i)).map some =
      (List.range nvars).map fun j => val (uname j) := by
    rw [List.map_map]
    refine List.map_congr_left fun j hj => ?_
    rw [hs.ins j (by simpa using hj)]
    rfl
  rw [evalDc, if_neg (by simp; omega), h2, h3,
    runElems_eq h.wf (by rw [h1]; omega) hs (dc.length - nouts - nvars) nvars (by rw [h1]; omega)
      (le_refl _), Res.bind_ok, h1, runOuts_eq (by omega) h.outs]

/-! ### Equal elements -/

variable [FmtName K]

theorem argV_of_beq {v : Env K} {val : String → Option K} {i : Nat} {a b : Expr K} (ha : ArgOk i a)
    (h : a.beq b = true) : argV v val a = argV v val b := by
  cases a <;> cases b <;> try (simp [Expr.beq] at h; done)
  · rename_i n m
    simp only [argV, Num.toK?]
    obtain ⟨s, x⟩ := n
    obtain ⟨t, y⟩ := m
    simp only [Expr.beq, Num.beq] at h
    by_cases hst : s = t
    · simp only [hst, if_true] at h
      cases x <;> cases y <;> simp [FVal.isNan, FVal.feq, FVal.isZero] at h ⊢ <;> simp [h]
    · simp [hst] at h
  · simp only [Expr.beq, beq_iff_eq] at h
    rw [h]
  · simp only [Expr.beq, beq_iff_eq] at h
    rw [h]
  · exact absurd ha (by simp [ArgOk])

theorem argsV_of_beq {v : Env K} {val : String → Option K} {i : Nat} {as bs : List (Expr K)}
    (ha : ∀ a ∈ as, ArgOk i a) (h : Expr.beqL as bs = true) :
    as.map (argV v val) = bs.map (argV v val) := by
  induction as generalizing bs with
  | nil => cases bs <;> simp [Expr.beqL] at h ⊢
  | cons a as ih =>
    cases bs with
    | nil => simp [Expr.beqL] at h
    | cons b bs =>
      simp only [Expr.beqL, Bool.and_eq_true] at h
      rw [List.map_cons, List.map_cons, argV_of_beq (ha a List.mem_cons_self) h.1,
        ih (fun x hx => ha x (List.mem_cons_of_mem _ hx)) h.2]

theorem appO_eq (v : Env K) (f : Fn K) (xs : List (Option K)) (h : f ≠ .time ∨ xs ≠ []) :
    appO v f xs = (allSome xs).bind (Interp.app f) := by
  unfold appO
  split <;> simp_all

theorem elemV_of_beq {P : Fn K → Prop} (hP : NameSound P) {v : Env K} {val : String → Option K}
    {i : Nat} {f g : Fn K} {as bs : List (Expr K)} (ha : ∀ a ∈ as, ArgOk i a) (hf : P f) (hg : P g)
    (h : (Expr.fn f as).beq (.fn g bs) = true) : elemV v val (.fn f as) = elemV v val (.fn g bs) := by
  simp only [Expr.beq, Bool.and_eq_true, beq_iff_eq] at h
  obtain ⟨h3, h4⟩ := hP f g hf hg h.1
  simp only [elemV]
  rw [argsV_of_beq ha h.2]
  generalize bs.map (argV v val) = xs
  by_cases ht : f = .time ∧ xs = []
  · obtain ⟨rfl, rfl⟩ := ht
    rw [h4.1 rfl]
  · have h5 : f ≠ .time ∨ xs ≠ [] := by
      by_cases hft : f = .time
      · exact .inr fun hx => ht ⟨hft, hx⟩
      · exact .inl hft
    rw [appO_eq _ _ _ h5, appO_eq _ _ _ (h5.imp (fun h6 h7 => h6 (h4.2 h7)) id), h3]

end

/-! ### Renaming -/

/-- The effect of a renaming map on a name. -/
def renName (σ : String → Option String) (s : String) : String := (σ s).getD s

theorem renameLeaf_var (σ : String → Option String) (s : String) :
    renameLeaf σ (.var s : Expr K) = .var (renName σ s) := by
  simp only [renameLeaf, renName]
  cases σ s <;> rfl

theorem rename_arg (σ : String → Option String) {i : Nat} {a : Expr K} (ha : ArgOk i a) :
    a.mapNodes (renameLeaf σ) id = renameLeaf σ a := by
  cases a with
  | fn f as => exact absurd ha (by simp [ArgOk])
  | _ => simp [Expr.mapNodes]

theorem rename_fn (σ : String → Option String) (f : Fn K) (args : List (Expr K)) :
    (Expr.fn f args).mapNodes (renameLeaf σ) id =
      .fn f (args.map fun a => a.mapNodes (renameLeaf σ) id) := by
  rw [Expr.mapNodes, Expr.mapNodesL_eq_map]
  rfl

theorem argOk_rename {σ : String → Option String} {i k : Nat} {a : Expr K} (ha : ArgOk i a)
    (h : ∀ j, j < i → ∃ l, l < k ∧ renName σ (uname j) = uname l) :
    ArgOk k (a.mapNodes (renameLeaf σ) id) := by
  rw [rename_arg σ ha]
  cases a with
  | var s =>
    obtain ⟨j, hj, rfl⟩ := ha
    rw [renameLeaf_var]
    exact h j hj
  | fn f as => exact ha
  | _ => trivial

section
variable [Field K] [LinearOrder K] [Interp K]

theorem argV_rename {σ : String → Option String} {v : Env K} {val val' : String → Option K} {i : Nat}
    {a : Expr K} (ha : ArgOk i a)
    (h : ∀ j, j < i → val' (renName σ (uname j)) = val (uname j)) :
    argV v val' (a.mapNodes (renameLeaf σ) id) = argV v val a := by
  rw [rename_arg σ ha]
  cases a with
  | var s =>
    obtain ⟨j, hj, rfl⟩ := ha
    rw [renameLeaf_var]
    exact h j hj
  | _ => rfl

theorem elemV_rename {σ : String → Option String} {v : Env K} {val val' : String → Option K} {i : Nat}
    {f : Fn K} {args : List (Expr K)} (ha : ∀ a ∈ args, ArgOk i a)
    (h : ∀ j, j < i → val' (renName σ (uname j)) = val (uname j)) :
    elemV v val' ((Expr.fn f args).mapNodes (renameLeaf σ) id) = elemV v val (.fn f args) := by
  rw [rename_fn]
  simp only [elemV, List.map_map]
  congr 1
  exact List.map_congr_left fun a hm => argV_rename (ha a hm) h

end

end Heyoka.Sym

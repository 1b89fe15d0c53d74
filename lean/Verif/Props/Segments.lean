import Verif.Compact.Kernel
import Verif.Util.Tasks

/-!
# C10: segments of decompositions
-/

set_option linter.unusedSectionVars false

namespace Heyoka.Sym

/-! ### Specification -/

/-- The lists `segs` are a partition of `mid` into segments: nothing is lost or reordered, no segment is empty. The
element `k` of `mid` defines the variable `nvars + k`; `dep e j` means that the definition `e` depends on the variable
`j`. No definition depends on a variable defined in its own segment, or later. -/
structure Segments {α : Type} (dep : α → Nat → Prop) (nvars : Nat) (mid : List α) (segs : List (List α)) : Prop where
  flatten : segs.flatten = mid
  nonempty : ∀ seg ∈ segs, seg ≠ []
  indep : ∀ pre seg post, segs = pre ++ seg :: post → ∀ e ∈ seg, ∀ j, dep e j → j < nvars + pre.flatten.length

/-- An expression depends on a variable. -/
def usesU {K : Type} (e : Expr K) (j : Nat) : Prop := uname j ∈ e.variables

/-- The execution of the segments one after the other; `σs` are the memory accesses in every segment. -/
def runScheds {V : Type} : List (Option V) → List (List (TapeOp V)) → Res (List (Option V))
  | tape, [] => .ok tape
  | tape, σ :: σs => (runOps ⟨tape, fun _ => []⟩ σ).bind fun s => runScheds s.tape σs

/-! ### Helpers -/

/-- The same in recursive form. -/
def SegDeps {α : Type} (dep : α → Nat → Prop) (start : Nat) : List (List α) → Prop
  | [] => True
  | seg :: segs => (∀ e ∈ seg, ∀ j, dep e j → j < start) ∧ SegDeps dep (start + seg.length) segs

theorem segDeps_of {α : Type} {dep : α → Nat → Prop} : ∀ {segs : List (List α)} {start : Nat},
    (∀ pre seg post, segs = pre ++ seg :: post → ∀ e ∈ seg, ∀ j, dep e j → j < start + pre.flatten.length) →
    SegDeps dep start segs
  | [], _, _ => trivial
  | seg :: segs, start, h => by
    refine ⟨fun e he j hj => by simpa using h [] seg segs rfl e he j hj, segDeps_of fun pre s post hs e he j hj => ?_⟩
    have := h (seg :: pre) s post (by rw [hs]; rfl) e he j hj
    simp only [List.flatten_cons, List.length_append] at this
    omega

theorem indep_of {α : Type} {idxs : α → Res (List Nat)} {dep : α → Nat → Prop} :
    ∀ {segs : List (List α)} {start : Nat}, SegsOk idxs start segs →
    (∀ seg ∈ segs, ∀ e ∈ seg, ∀ is, idxs e = .ok is → ∀ j, dep e j → j ∈ is) →
    ∀ pre seg post, segs = pre ++ seg :: post → ∀ e ∈ seg, ∀ j, dep e j → j < start + pre.flatten.length
  | [], _, _, _, pre, seg, post, h => by simp at h
  | s :: segs, start, hs, hd, pre, seg, post, h => by
    intro e he j hj
    cases pre with
    | nil =>
      simp only [List.nil_append, List.cons.injEq] at h
      obtain ⟨rfl, rfl⟩ := h
      obtain ⟨is, h1, h2⟩ := hs.2.1 e he
      have := h2 j (hd _ List.mem_cons_self e he is h1 j hj)
      omega
    | cons p pre =>
      simp only [List.cons_append, List.cons.injEq] at h
      obtain ⟨rfl, h⟩ := h
      have := indep_of hs.2.2 (fun x hx => hd x (List.mem_cons_of_mem _ hx)) pre seg post h e he j hj
      simp only [List.flatten_cons, List.length_append]
      omega

theorem segsOk_nonempty {α : Type} {idxs : α → Res (List Nat)} : ∀ {segs : List (List α)} {start : Nat},
    SegsOk idxs start segs → ∀ seg ∈ segs, seg ≠ []
  | [], _, _, seg, h => by cases h
  | s :: segs, start, hs, seg, h => by
    rcases List.mem_cons.1 h with rfl | h
    · exact hs.1
    · exact segsOk_nonempty hs.2.2 seg h

theorem mem_right_of_forall₂ {α β : Type} {R : α → β → Prop} {l : List α} {l' : List β} (h : List.Forall₂ R l l')
    {b : β} (hb : b ∈ l') : ∃ a, a ∈ l ∧ R a b := by
  induction h with
  | nil => cases hb
  | @cons x y xs ys h1 _ ih =>
    rcases List.mem_cons.1 hb with rfl | hb
    · exact ⟨x, List.mem_cons_self, h1⟩
    · obtain ⟨a, ha, h2⟩ := ih hb
      exact ⟨a, List.mem_cons_of_mem _ ha, h2⟩

/-! ### Theorems -/

section
variable {K : Type} [Field K] [LinearOrder K] [FloorRing K] [Interp K] [CodeInterp K] [FmtName K]

/-- C10, compiled functions: in a decomposition every definition is a function, and depends only on variables defined
before. Then `function_segment_dc()` succeeds and returns segments as specified. The merged functions
after the inlining are allowed. -/
theorem function_segments {nvars : Nat} {mid : List (Expr K)} (hlen : nvars + mid.length ≤ 2 ^ 32)
    (hfn : ∀ e ∈ mid, ∃ f args, e = .fn f args)
    (hdep : ∀ (k : Nat) (e : Expr K), mid[k]? = some e → ∀ s ∈ e.variables, ∃ j, j < nvars + k ∧ s = uname j) :
    ∃ segs, segmentDc nvars mid = .ok segs ∧ Segments usesU nvars mid segs := by
  have key : ∀ (k : Nat) (e : Expr K), mid[k]? = some e →
      ∃ is, udefIdxs e = .ok is ∧ (∀ j ∈ is, j < nvars + k) ∧ ∀ j, usesU e j → j ∈ is := by
    intro k e hk
    have hkl := (List.getElem?_eq_some_iff.1 hk).1
    obtain ⟨f, args, rfl⟩ := hfn e (List.mem_of_getElem? hk)
    have hleaf : ∀ a ∈ (Expr.fn f args).leaves, ArgOk (nvars + k) a := by
      intro a ha
      cases a with
      | var s => exact hdep k _ hk s ((mem_variables' _ _).2 ha)
      | fn g bs => exact absurd (isFn_of_mem_leaves ha) (by simp [Expr.isFn])
      | _ => trivial
    obtain ⟨is, h1, h2⟩ := udefIdxs_ok (i := nvars + k) (by omega) rfl hleaf
    refine ⟨is, h1, fun j hj => ?_, fun j hj => (h2 j).2 ((mem_variables' _ _).1 hj)⟩
    obtain ⟨k', h3, h4⟩ := hdep k _ hk _ ((mem_variables' _ _).2 ((h2 j).1 hj))
    rw [uname_inj h4]
    exact h3
  obtain ⟨segs, h1, h2, h3⟩ := segmentDc_ok (nvars := nvars) (mid := mid) fun k e hk => by
    obtain ⟨is, h1, h2, -⟩ := key k e hk
    exact ⟨is, h1, h2⟩
  refine ⟨segs, h1, h2, segsOk_nonempty h3, indep_of h3 fun seg hseg e he is his j hj => ?_⟩
  obtain ⟨k, hk⟩ := List.mem_iff_getElem?.1 (show e ∈ mid by rw [← h2]; exact List.mem_flatten.2 ⟨seg, hseg, he⟩)
  obtain ⟨is', g1, -, g2⟩ := key k e hk
  rw [his] at g1
  cases g1
  exact g2 j hj

/-- C10, Taylor decompositions: the same. The hidden dependencies are carried along. -/
theorem taylor_segments {nEq : Nat} {mid : List (Expr K × List Nat)} (hlen : nEq + mid.length ≤ 2 ^ 32)
    (hdep : ∀ (k : Nat) (p : Expr K × List Nat), mid[k]? = some p → ∃ f args, p.1 = .fn f args ∧
      ∀ a ∈ args, ArgOk (nEq + k) a) :
    ∃ segs, taylorSegmentDc nEq mid = .ok segs ∧ Segments (fun p => usesU p.1) nEq mid segs := by
  have key : ∀ (k : Nat) (p : Expr K × List Nat), mid[k]? = some p →
      ∃ is, flatIdxs p.1 = .ok is ∧ (∀ j ∈ is, j < nEq + k) ∧ ∀ j, usesU p.1 j → j ∈ is := by
    intro k p hk
    have hkl := (List.getElem?_eq_some_iff.1 hk).1
    obtain ⟨f, args, h0, h1⟩ := hdep k p hk
    obtain ⟨is, h2, h3⟩ := argIdxs_ok (i := nEq + k) (by omega) args h1
    refine ⟨is, by rw [h0]; exact h2, fun j hj => ?_, fun j hj => ?_⟩
    · obtain ⟨k', h4, h5⟩ := h1 _ ((h3 j).1 hj)
      rw [uname_inj h5]
      exact h4
    · rw [usesU, h0, mem_variables h1] at hj
      exact (h3 j).2 hj
  obtain ⟨segs, h1, h2, h3⟩ : ∃ segs, taylorSegmentDc nEq mid = .ok segs ∧ segs.flatten = mid ∧
      SegsOk (fun p : Expr K × List Nat => flatIdxs p.1) nEq segs := by
    cases hm : mid with
    | nil => exact ⟨[], rfl, rfl, trivial⟩
    | cons e es =>
      rw [← hm]
      have := segmentLoop_ok (idxs := fun p : Expr K × List Nat => flatIdxs p.1) mid nEq nEq [] (by simp) (by simp)
        (.inr (by simp [hm])) fun k e hk => by
          obtain ⟨is, h1, h2, -⟩ := key k e hk
          exact ⟨is, h1, h2⟩
      obtain ⟨segs, h1, h2⟩ := this
      refine ⟨segs, ?_, by simpa using h2⟩
      rw [hm] at h1 ⊢
      exact h1
  refine ⟨segs, h1, h2, segsOk_nonempty h3, indep_of h3 fun seg hseg e he is his j hj => ?_⟩
  obtain ⟨k, hk⟩ := List.mem_iff_getElem?.1 (show e ∈ mid by rw [← h2]; exact List.mem_flatten.2 ⟨seg, hseg, he⟩)
  obtain ⟨is', g1, -, g2⟩ := key k e hk
  rw [his] at g1
  cases g1
  exact g2 j hj

end

section
variable {V α : Type} {dep : α → Nat → Prop}

/-- What a task for the definition `e` may read: variables on which `e` depends (stored from the address `base` on), and
anything stored before `base` (derivatives of lower orders). -/
def ReadsOk (dep : α → Nat → Prop) (base : Nat) (e : α) (t : Task V) : Prop :=
  ∀ r ∈ t.reads, r < base ∨ ∃ j, dep e j ∧ r = base + j

theorem segs_run (base : Nat) : ∀ {segs : List (List α)} {tss : List (List (Task V))} {start : Nat}
    {t0 : List (Option V)}, SegDeps dep start segs →
    List.Forall₂ (List.Forall₂ (ReadsOk dep base)) segs tss →
    (tss.flatten.map Task.addr = (List.range tss.flatten.length).map (base + start + ·)) →
    base + start + tss.flatten.length ≤ t0.length →
    (∀ a, a < base + start → ∃ x, t0[a]? = some (some x)) →
    ∃ t1, runSeq t0 tss.flatten = .ok t1 ∧
      ∀ σs, List.Forall₂ (fun ts σ => Interleave (taskOps 0 ts) σ) tss σs → runScheds t0 σs = .ok t1
  | _, _, start, t0, _, .nil, _, _, _ => ⟨t0, rfl, fun σs h => by cases h; rfl⟩
  | seg :: segs, ts :: tss, start, t0, hd, .cons h1 h2, ha, hl, hs => by
    have hlen := h1.length_eq
    rw [List.flatten_cons, List.length_append, List.map_append, List.range_add, List.map_append] at ha
    obtain ⟨ha1, ha2⟩ := List.append_inj ha (by simp)
    rw [List.map_map] at ha2
    rw [List.flatten_cons, List.length_append] at hl
    have haddr : ∀ a, a ∈ ts.map Task.addr ↔ base + start ≤ a ∧ a < base + start + ts.length := by
      intro a
      rw [ha1, List.mem_map]
      constructor
      · rintro ⟨i, hi, rfl⟩
        have := List.mem_range.1 hi
        omega
      · rintro ⟨h3, h4⟩
        exact ⟨a - (base + start), List.mem_range.2 (by omega), by omega⟩
    have hreads : ∀ t ∈ ts, ∀ r ∈ t.reads, r < base + start := by
      intro t ht r hr
      obtain ⟨e, he, h3⟩ := mem_right_of_forall₂ h1 ht
      rcases h3 r hr with h4 | ⟨j, hj, rfl⟩
      · omega
      · have := hd.1 e he j hj
        omega
    have hnd : (ts.map Task.addr).Nodup := by
      rw [ha1]
      exact List.nodup_range.map fun a b h => by simpa using h
    obtain ⟨t1, g1, g2, g3, g4, g5⟩ := interleave_eq_seq (t0 := t0) hnd
      (fun t ht => by have := (haddr t.addr).1 (List.mem_map_of_mem ht); omega)
      (fun t ht r hr hm => by have := hreads t ht r hr; have := (haddr r).1 hm; omega)
      (fun t ht => readVals_isSome fun r hr => hs r (hreads t ht r hr))
    obtain ⟨t2, k1, k2⟩ := segs_run base (start := start + seg.length) (t0 := t1) hd.2 h2 (by
        rw [ha2]
        refine List.map_congr_left fun i _ => ?_
        simp only [Function.comp]
        omega) (by omega) fun a hlt => by
          by_cases h3 : a ∈ ts.map Task.addr
          · obtain ⟨t, ht, rfl⟩ := List.mem_map.1 h3
            exact g3 t ht
          · rw [g4 a h3]
            refine hs a ?_
            by_contra hc
            exact h3 ((haddr a).2 ⟨by omega, by omega⟩)
    refine ⟨t2, by rw [List.flatten_cons, runSeq_append, g1, Res.bind_ok, k1], fun σs hσ => ?_⟩
    cases hσ with
    | cons hσ1 hσ2 =>
      obtain ⟨s', r1, r2⟩ := g5 _ hσ1
      rw [runScheds, r1, Res.bind_ok, r2]
      exact k2 _ hσ2

/-- C10: the evaluation of the definitions. Every definition is evaluated by a task which reads some of the variables on
which the definition depends (and, for the derivatives of a positive order, anything computed for lower orders, stored
before the address `base`), and stores the result; it may compute anything. If the inputs are there, the
sequential execution of all the tasks succeeds, and for every interleaving of the memory accesses of the tasks of each
segment, the execution of the segments one after the other succeeds with the same result. -/
theorem segments_any_order {nvars : Nat} {mid : List α} {segs : List (List α)} (hseg : Segments dep nvars mid segs)
    (base : Nat) {tss : List (List (Task V))}
    (hreads : List.Forall₂ (List.Forall₂ (ReadsOk dep base)) segs tss)
    (haddr : tss.flatten.map Task.addr = (List.range mid.length).map (base + nvars + ·))
    {t0 : List (Option V)} (hlen : base + nvars + mid.length ≤ t0.length)
    (hset : ∀ a, a < base + nvars → ∃ x, t0[a]? = some (some x)) :
    ∃ t1, runSeq t0 tss.flatten = .ok t1 ∧
      ∀ σs, List.Forall₂ (fun ts σ => Interleave (taskOps 0 ts) σ) tss σs → runScheds t0 σs = .ok t1 := by
  have hl : tss.flatten.length = mid.length := by
    have := congrArg List.length haddr
    rwa [List.length_map, List.length_map, List.length_range] at this
  exact segs_run base (segDeps_of hseg.indep) hreads (by rw [haddr, hl]) (by omega) hset

end

/-! ### Examples -/

local instance segInterp : Interp ℚ := { fold := fun _ _ => none, app := fun _ _ => none }
local instance segCode : CodeInterp ℚ := ⟨fun _ _ => none⟩
local instance segFmt : FmtName ℚ := ⟨fun _ => ""⟩

/-- The middle part of the decomposition of `(x + y) * (x * y)`, and of something depending on the first element only. -/
def exampleMid : List (Expr ℚ) :=
  [.fn .sum [.var "u_0", .var "u_1"], .fn (.prod false) [.var "u_0", .var "u_1"],
    .fn (.prod false) [.var "u_2", .var "u_3"], .fn .exp [.var "u_2"]]

/-- The hypotheses of `function_segments` are met; the first two definitions are in one segment, the other two in
another one. -/
example : 2 + exampleMid.length ≤ 2 ^ 32 ∧ (∀ e ∈ exampleMid, ∃ f args, e = .fn f args) ∧
    (∀ (k : Nat) (e : Expr ℚ), exampleMid[k]? = some e → ∀ s ∈ e.variables, ∃ j, j < 2 + k ∧ s = uname j) ∧
    segmentDc 2 exampleMid = .ok [[.fn .sum [.var "u_0", .var "u_1"], .fn (.prod false) [.var "u_0", .var "u_1"]],
      [.fn (.prod false) [.var "u_2", .var "u_3"], .fn .exp [.var "u_2"]]] := by
  have n0 : "u_0" = uname 0 := by decide +kernel
  have n1 : "u_1" = uname 1 := by decide +kernel
  have n2 : "u_2" = uname 2 := by decide +kernel
  have n3 : "u_3" = uname 3 := by decide +kernel
  refine ⟨by decide, ?_, ?_, by with_unfolding_all rfl⟩
  · intro e he
    simp only [exampleMid, List.mem_cons, List.not_mem_nil, or_false] at he
    rcases he with rfl | rfl | rfl | rfl <;> exact ⟨_, _, rfl⟩
  · intro k e hk s hs
    rw [mem_variables'] at hs
    match k, hk with
    | 0, hk =>
      cases hk
      simp only [Expr.leaves, Expr.leavesL, List.cons_append, List.nil_append, List.mem_cons, Expr.var.injEq,
        List.not_mem_nil, or_false] at hs
      rcases hs with rfl | rfl
      · exact ⟨0, by decide, n0⟩
      · exact ⟨1, by decide, n1⟩
    | 1, hk =>
      cases hk
      simp only [Expr.leaves, Expr.leavesL, List.cons_append, List.nil_append, List.mem_cons, Expr.var.injEq,
        List.not_mem_nil, or_false] at hs
      rcases hs with rfl | rfl
      · exact ⟨0, by decide, n0⟩
      · exact ⟨1, by decide, n1⟩
    | 2, hk =>
      cases hk
      simp only [Expr.leaves, Expr.leavesL, List.cons_append, List.nil_append, List.mem_cons, Expr.var.injEq,
        List.not_mem_nil, or_false] at hs
      rcases hs with rfl | rfl
      · exact ⟨2, by decide, n2⟩
      · exact ⟨3, by decide, n3⟩
    | 3, hk =>
      cases hk
      simp only [Expr.leaves, Expr.leavesL, List.cons_append, List.nil_append, List.mem_cons, Expr.var.injEq,
        List.not_mem_nil, or_false] at hs
      subst hs
      exact ⟨2, by decide, n2⟩
    | k + 4, hk => simp [exampleMid] at hk

/-- A Taylor decomposition with a hidden dependency. -/
example : taylorSegmentDc 1 [((.fn (.sin false) [.var "u_0"] : Expr ℚ), [2]), (.fn (.cos false) [.var "u_0"], [1]),
      (.fn .exp [.var "u_1"], [])] =
    .ok [[(.fn (.sin false) [.var "u_0"], [2]), (.fn (.cos false) [.var "u_0"], [1])], [(.fn .exp [.var "u_1"], [])]] := by
  with_unfolding_all rfl

/-- Tasks for the segments of `exampleMid`. -/
def exampleTasks : List (List (Task ℚ)) :=
  [[⟨2, [0, 1], fun xs => xs.sum⟩, ⟨3, [0, 1], fun xs => xs.prod⟩],
    [⟨4, [2, 3], fun xs => xs.prod⟩, ⟨5, [2], fun xs => xs.sum⟩]]

/-- The sequential execution, and another schedule. -/
example : runSeq [some 3, some 4, none, none, none, none] exampleTasks.flatten =
      .ok [some 3, some 4, some 7, some 12, some 84, some 7] ∧
    Interleave (taskOps 0 [⟨2, [0, 1], fun xs => xs.sum⟩, ⟨3, [0, 1], fun xs => xs.prod⟩])
      [.load 1 0, .load 0 0, .load 1 1, .store 1 3 fun xs : List ℚ => xs.prod, .load 0 1,
        .store 0 2 fun xs => xs.sum] := by
  refine ⟨by with_unfolding_all rfl, ?_⟩
  exact .step (i := 1) rfl (.step (i := 0) rfl (.step (i := 1) rfl (.step (i := 1) rfl (.step (i := 0) rfl
    (.step (i := 0) rfl (.done (by simp [taskOps, Task.ops])))))))

end Heyoka.Sym

import Verif.Taylor.Decompose
import Verif.Decomp.FunDecLemmas

/-!
# Changes of the indices in Taylor decompositions
-/

set_option linter.unusedSectionVars false

namespace Heyoka.Taylor

open Heyoka.Sym

variable {K : Type} {i n neq : ℕ} {π : ℕ → ℕ} {dc : TDc K}

open Classical in
/-- The index of a `u` variable. -/
noncomputable def uidx (s : String) : ℕ := if h : ∃ i, s = uname i then h.choose else 0

@[simp] theorem uidx_uname (i : ℕ) : uidx (uname i) = i := by
  have h : ∃ j, uname i = uname j := ⟨i, rfl⟩
  rw [uidx, dif_pos h]
  exact (uname_inj h.choose_spec).symm

/-- The change of the indices in an element. -/
noncomputable def reArg (π : ℕ → ℕ) : Expr K → Expr K
  | .var s => .var (uname (π (uidx s)))
  | e => e

/-- The change of the indices in an element. -/
noncomputable def reElem (π : ℕ → ℕ) : Expr K → Expr K
  | .fn f es => .fn f (es.map (reArg π))
  | e => reArg π e

theorem renameLeaf_eq_reArg {ren : List (String × String)} {a : Expr K} (ha : ArgOk i a)
    (h : ∀ j < i, ren.lookup (uname j) = some (uname (π j))) :
    a.mapNodes (renameLeaf fun s => ren.lookup s) id = reArg π a := by
  rw [rename_arg _ ha]
  cases a with
  | var s =>
    obtain ⟨j, hj, rfl⟩ := ha
    rw [renameLeaf_var, renName, h j hj]
    simp [reArg]
  | fn f as => exact absurd ha (by simp [ArgOk])
  | _ => rfl

theorem renameIn_arg {ren : List (String × String)} {a : Expr K} (ha : ArgOk i a)
    (h : ∀ j < i, ren.lookup (uname j) = some (uname (π j))) : renameIn ren a = reArg π a :=
  renameLeaf_eq_reArg ha h

theorem renameIn_fn {ren : List (String × String)} {f : Fn K} {es : List (Expr K)} (ha : ∀ a ∈ es, ArgOk i a)
    (h : ∀ j < i, ren.lookup (uname j) = some (uname (π j))) :
    renameIn ren (.fn f es) = .fn f (es.map (reArg π)) := by
  rw [renameIn, rename_fn]
  congr 1
  exact List.map_congr_left fun a hm => renameLeaf_eq_reArg (ha a hm) h

theorem argOk_reArg {a : Expr K} {k : ℕ} (ha : ArgOk i a) (h : ∀ j, a = .var (uname j) → π j < k) :
    ArgOk k (reArg π a) := by
  cases a with
  | var s =>
    obtain ⟨j, hj, rfl⟩ := ha
    exact ⟨π j, h j rfl, by simp⟩
  | fn f as => exact absurd ha (by simp [ArgOk])
  | _ => trivial

/-- The element `e` reads the variable `j`. -/
def ReadsVar (e : Expr K) (j : ℕ) : Prop := ∃ f es, e = .fn f es ∧ .var (uname j) ∈ es

/-! ### The remapping of the indices -/

theorem remapIdx_ok {ren : List (String × String)} {ds : List ℕ}
    (h : ∀ d ∈ ds, ren.lookup (uname d) = some (uname (π d)) ∧ π d < 2 ^ 32) :
    remapIdx ren ds = .ok (ds.map π) := by
  induction ds with
  | nil => rfl
  | cons d ds ih =>
    obtain ⟨h1, h2⟩ := h d (by simp)
    rw [remapIdx, h1]
    simp only [unameToIndex_uname, if_pos h2, Res.bind_ok, ih fun d hd => h d (by simp [hd]), List.map_cons]

theorem remapDeps_ok {ren : List (String × String)} {dc : TDc K}
    (h : ∀ e ∈ dc, ∀ d ∈ e.2, ren.lookup (uname d) = some (uname (π d)) ∧ π d < 2 ^ 32) :
    remapDeps ren dc = .ok (dc.map fun e => (e.1, e.2.map π)) := by
  induction dc with
  | nil => rfl
  | cons e es ih =>
    rw [remapDeps, remapIdx_ok (h e (by simp)), ih fun x hx => h x (by simp [hx])]
    rfl

theorem lookup_range {j neq : ℕ} (h : j < neq) :
    ((List.range neq).map fun i => (uname i, uname i)).lookup (uname j) = some (uname j) := by
  refine lookup_of_nodup ?_ (List.mem_map.2 ⟨j, List.mem_range.2 h, rfl⟩)
  rw [List.map_map]
  exact List.nodup_range.map fun a b hab => uname_inj hab

theorem tOuts_get {k : ℕ} {e : TElem K} (h : (tOuts neq dc)[k]? = some e) : dc[dc.length - neq + k]? = some e := by
  rwa [tOuts, List.getElem?_drop] at h

/-- What the loop of the sort returns for the graph of a decomposition. -/
theorem kahn_reorder {Q : Fn K → Prop} {nvars : ℕ} {ex : List (Expr K)} (h : WF Q nvars ex) (hl : ex.length ≤ 2 ^ 32)
    (fuel : ℕ) : ∃ es, graphEdges nvars 0 ex = .ok es ∧
    (∀ p, kahnLoop fuel es [0] [] = some p → p.1.length = ex.length + 1 ∧ p.2 = [] ∧
      Reorder nvars ex.length (p.1.tail.map (· - 1)) ∧
      ∀ (k i : ℕ) (f : Fn K) (args : List (Expr K)) (j : ℕ), nvars ≤ i → (p.1.tail.map (· - 1))[k]? = some i →
        ex[i]? = some (.fn f args) → .var (uname j) ∈ args → ∃ l : ℕ, l < k ∧ (p.1.tail.map (· - 1))[l]? = some j) ∧
    (ex.length + 1 ≤ fuel → ∃ p, kahnLoop fuel es [0] [] = some p) := by
  have hlen := h.len
  obtain ⟨es, h1, h2, h3⟩ := graphEdges_wf h hl
  obtain ⟨h4, h5⟩ := kahn_spec h2 fuel
  refine ⟨es, h1, ?_, h5⟩
  rintro ⟨res, es'⟩ hk
  obtain ⟨h6, h7, h8, h9⟩ := h4 _ hk
  simp only at h6 h7 h8 h9 ⊢
  subst h7
  obtain ⟨rest, rfl⟩ := h8
  have hr0 : List.range (nvars + 1) = 0 :: (List.range nvars).map (· + 1) := List.range_succ_eq_map
  have hro : Reorder nvars ex.length
      ((List.range (nvars + 1) ++ rest).tail.map (· - 1)) := by
    rw [hr0] at h6 ⊢
    rw [List.cons_append, List.tail_cons]
    rw [List.cons_append, List.range_succ_eq_map, List.perm_cons] at h6
    refine ⟨?_, ?_, by omega⟩
    · have := h6.map (· - 1)
      refine this.trans ?_
      rw [List.map_map]
      simp [Function.comp_def]
    · rw [List.map_append, List.map_map]
      have : ((fun x : Nat => x - 1) ∘ fun x => x + 1) = id := by funext x; simp
      rw [this, List.map_id, List.take_left' (by simp)]
  refine ⟨by rw [h6.length_eq, List.length_range], rfl, hro, ?_⟩
  intro k i f args j hi hki hf hj
  have hedge := h3 i f args j hi hf hj
  have hpos : (List.range (nvars + 1) ++ rest)[k + 1]? = some (i + 1) := by
    rw [hr0] at hki ⊢
    rw [List.cons_append, List.tail_cons, List.getElem?_map, Option.map_eq_some_iff] at hki
    obtain ⟨x, hx, hx2⟩ := hki
    rw [List.cons_append, List.getElem?_cons_succ, hx]
    have : x ≠ 0 := by
      rintro rfl
      have hnd := h6.nodup_iff.2 List.nodup_range
      rw [hr0, List.cons_append, List.nodup_cons] at hnd
      exact hnd.1 (List.mem_of_getElem? hx)
    congr 1
    omega
  have hlt : k + 1 < (List.range (nvars + 1) ++ rest).length := by
    by_contra hc
    rw [List.getElem?_eq_none (by omega)] at hpos
    cases hpos
  have hsplit := List.take_append_drop (k + 1) (List.range (nvars + 1) ++ rest)
  rw [List.drop_eq_getElem_cons hlt] at hsplit
  have hel : (List.range (nvars + 1) ++ rest)[k + 1] = i + 1 := by
    rw [List.getElem?_eq_getElem hlt] at hpos
    simpa using hpos
  rw [hel] at hsplit
  have hmem := h9 _ _ _ hsplit.symm (j + 1) hedge
  obtain ⟨m, hm⟩ := List.mem_iff_getElem?.1 hmem
  have hmk : m < k + 1 := by
    by_contra hc
    rw [List.getElem?_eq_none (by rw [List.length_take]; omega)] at hm
    cases hm
  rw [List.getElem?_take_of_lt hmk] at hm
  cases m with
  | zero =>
    rw [hr0, List.cons_append, List.getElem?_cons_zero] at hm
    simp at hm
  | succ m =>
    refine ⟨m, by omega, ?_⟩
    rw [hr0] at hm ⊢
    rw [List.cons_append, List.getElem?_cons_succ] at hm
    rw [List.cons_append, List.tail_cons, List.getElem?_map, hm]
    simp

/-- The numbers of a decomposition seen as functions. -/
def numFn : Expr K → Expr K
  | .num m => .fn .numId [.num m]
  | e => e

theorem variables_numFn (e : Expr K) : (numFn e).variables = e.variables := by
  cases e <;> rfl

theorem elemEdges_numFn (nvars i : ℕ) (e : Expr K) : elemEdges nvars i (numFn e) = elemEdges nvars i e := by
  unfold elemEdges
  rw [variables_numFn]

theorem graphEdges_numFn (nvars : ℕ) (es : List (Expr K)) : ∀ i, graphEdges nvars i (es.map numFn) =
    graphEdges nvars i es := by
  induction es with
  | nil => intro i; rfl
  | cons e es ih => intro i; rw [List.map_cons, graphEdges, graphEdges, elemEdges_numFn, ih]

theorem zipIdx_fst {α : Type} (l : List α) : ∀ n : ℕ, (l.zipIdx n).map Prod.fst = l := by
  induction l with
  | nil => intro n; rfl
  | cons a l ih => intro n; simp [List.zipIdx_cons, ih]

theorem filterMap_get {α : Type} {dc : List α} {idx : List ℕ} (h : ∀ i ∈ idx, i < dc.length) :
    (idx.filterMap fun i => dc[i]?).length = idx.length ∧
    ∀ k : ℕ, (idx.filterMap fun i => dc[i]?)[k]? = idx[k]?.bind fun i => dc[i]? := by
  induction idx with
  | nil => simp
  | cons i idx ih =>
    obtain ⟨h1, h2⟩ := ih fun i hi => h i (List.mem_cons_of_mem _ hi)
    have hi := h i List.mem_cons_self
    rw [List.filterMap_cons, List.getElem?_eq_getElem hi]
    refine ⟨by simp [h1], fun k => ?_⟩
    cases k with
    | zero => simp [hi]
    | succ k => simp only [List.getElem?_cons_succ]; exact h2 k

theorem replaceNumbers_get (hl : neq + neq ≤ dc.length) :
    (replaceNumbers neq dc).length = dc.length ∧
    (∀ i < neq, (replaceNumbers neq dc)[i]? = dc[i]?) ∧
    (∀ i, neq ≤ i → i < dc.length - neq → (replaceNumbers neq dc)[i]? = dc[i]?.map replaceNumber) ∧
    (∀ i, dc.length - neq ≤ i → (replaceNumbers neq dc)[i]? = dc[i]?) := by
  have h1 : (dc.take neq).length = neq := by simp; omega
  have h2 : ((tMid neq dc).map replaceNumber).length = dc.length - neq - neq := by simp [tMid]
  refine ⟨by simp [replaceNumbers, tMid, tOuts]; omega, ?_, ?_, ?_⟩
  · intro i hi
    rw [replaceNumbers, List.append_assoc, List.getElem?_append_left (by omega), List.getElem?_take_of_lt hi]
  · intro i hi hi'
    rw [replaceNumbers, List.append_assoc, List.getElem?_append_right (by omega),
      List.getElem?_append_left (by omega), List.getElem?_map, h1, tMid]
    rw [List.getElem?_take_of_lt (by omega), List.getElem?_drop, Nat.add_sub_cancel' hi]
  · intro i hi
    rw [replaceNumbers, List.getElem?_append_right (by simp only [List.length_append]; omega), tOuts,
      List.getElem?_drop]
    congr 1
    simp only [List.length_append]
    omega


end Heyoka.Taylor

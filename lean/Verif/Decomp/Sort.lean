import Verif.Decomp.Kahn
import Verif.Decomp.Passes

/-!
# Lemmas on the topological sort of decompositions
-/

set_option linter.unusedSectionVars false

namespace Heyoka.Sym

variable {K : Type}

/-! ### The graph -/

theorem mem_variables {i : Nat} {f : Fn K} {args : List (Expr K)} (ha : ∀ a ∈ args, ArgOk i a)
    (s : String) : s ∈ (Expr.fn f args).variables ↔ .var s ∈ args := by
  rw [Expr.variables, mem_sortedSet, List.mem_filterMap]
  simp only [Expr.leaves, mem_leavesL]
  constructor
  · rintro ⟨x, ⟨a, h1, h2⟩, h3⟩
    have hx : x = .var s := by
      cases x with
      | var t => simp only [leafVar, Option.some.injEq] at h3; rw [h3]
      | _ => simp [leafVar] at h3
    subst hx
    cases a with
    | fn g bs => exact absurd (ha _ h1) (by simp [ArgOk])
    | _ => simp [Expr.leaves] at h2; try (subst h2; exact h1)
  · exact fun h => ⟨.var s, ⟨.var s, h, by simp [Expr.leaves]⟩, rfl⟩

theorem variables_nodup (e : Expr K) : e.variables.Nodup :=
  (List.Pairwise.imp (fun h => ne_of_lt h) (sortedSet_pairwise _))

theorem edges_foldr (i : Nat) (vars : List String)
    (h : ∀ s ∈ vars, ∃ j, j < i ∧ j < 2 ^ 32 ∧ s = uname j) (hn : vars.Nodup) :
    ∃ l : List (Nat × Nat),
      vars.foldr (fun s acc => (unameToIndex s).bind fun j => acc.bind fun l => .ok ((j + 1, i + 1) :: l))
        (.ok []) = .ok l ∧ l.Nodup ∧ ∀ a b, (a, b) ∈ l ↔ ∃ j, uname j ∈ vars ∧ a = j + 1 ∧ b = i + 1 := by
  induction vars with
  | nil => exact ⟨[], rfl, by simp, by simp⟩
  | cons s vars ih =>
    rw [List.nodup_cons] at hn
    obtain ⟨l, h1, h2, h3⟩ := ih (fun s hs => h s (List.mem_cons_of_mem _ hs)) hn.2
    obtain ⟨j, hj, hj2, rfl⟩ := h s List.mem_cons_self
    refine ⟨(j + 1, i + 1) :: l, ?_, ?_, ?_⟩
    · rw [List.foldr_cons, h1, unameToIndex_uname, if_pos hj2]
      rfl
    · refine List.nodup_cons.2 ⟨fun hc => ?_, h2⟩
      obtain ⟨k, hk, h4, -⟩ := (h3 _ _).1 hc
      obtain rfl : j = k := by omega
      exact hn.1 hk
    · intro a b
      rw [List.mem_cons, h3]
      constructor
      · rintro (h4 | ⟨k, hk, h4⟩)
        · simp only [Prod.mk.injEq] at h4
          exact ⟨j, List.mem_cons_self, h4⟩
        · exact ⟨k, List.mem_cons_of_mem _ hk, h4⟩
      · rintro ⟨k, hk, rfl, rfl⟩
        rcases List.mem_cons.1 hk with hk | hk
        · left
          rw [uname_inj hk]
        · exact .inr ⟨k, hk, rfl, rfl⟩

/-- The edges to the vertex of the element `i`. -/
def EdgeTo (nvars i : Nat) (e : Expr K) (s : Nat) : Prop :=
  if i < nvars ∨ e.variables = [] then s = 0 else ∃ j, uname j ∈ e.variables ∧ s = j + 1

theorem elemEdges_eq {nvars i : Nat} {e : Expr K} (hi : i < 2 ^ 32)
    (h : nvars ≤ i → ∃ f args, e = .fn f args ∧ ∀ a ∈ args, ArgOk i a) :
    ∃ l, elemEdges nvars i e = .ok l ∧ l.Nodup ∧
      ∀ a b, (a, b) ∈ l ↔ b = i + 1 ∧ EdgeTo nvars i e a := by
  unfold elemEdges EdgeTo
  by_cases hn : i < nvars
  · exact ⟨[(0, i + 1)], by rw [if_pos hn], by simp, fun a b => by simp [hn, and_comm]⟩
  · rw [if_neg hn]
    by_cases hv : e.variables = []
    · exact ⟨[(0, i + 1)], by simp [hv], by simp, fun a b => by simp [hv, and_comm]⟩
    · obtain ⟨f, args, rfl, ha⟩ := h (by omega)
      have hb : ((Expr.fn f args).variables).isEmpty = false := by simpa using hv
      obtain ⟨l, h1, h2, h3⟩ := edges_foldr i (Expr.fn f args).variables (fun s hs => by
        obtain ⟨j, hj, rfl⟩ := ha _ ((mem_variables ha s).1 hs)
        exact ⟨j, hj, by omega, rfl⟩) (variables_nodup _)
      refine ⟨l, by simp only [hb]; exact h1, h2, fun a b => ?_⟩
      rw [h3, if_neg (by simp [hn, hv])]
      constructor
      · rintro ⟨j, h4, h5, h6⟩; exact ⟨h6, j, h4, h5⟩
      · rintro ⟨h6, j, h4, h5⟩; exact ⟨j, h4, h5, h6⟩

theorem graphEdges_eq {nvars : Nat} (es : List (Expr K)) : ∀ i, i + es.length ≤ 2 ^ 32 →
    (∀ k e, es[k]? = some e → nvars ≤ i + k →
      ∃ f args, e = .fn f args ∧ ∀ a ∈ args, ArgOk (i + k) a) →
    ∃ l, graphEdges nvars i es = .ok l ∧ l.Nodup ∧
      ∀ a b, (a, b) ∈ l ↔ ∃ k e, es[k]? = some e ∧ b = i + k + 1 ∧ EdgeTo nvars (i + k) e a := by
  induction es with
  | nil => intro i _ _; exact ⟨[], rfl, by simp, by simp⟩
  | cons e es ih =>
    intro i hl h
    simp only [List.length_cons] at hl
    obtain ⟨l1, h1, h2, h3⟩ := elemEdges_eq (nvars := nvars) (e := e) (i := i) (by omega)
      (fun hn => h 0 e rfl hn)
    obtain ⟨l2, h4, h5, h6⟩ := ih (i + 1) (by omega) (fun k e' he hn => by
      have := h (k + 1) e' (by simpa using he) (by omega)
      rwa [show i + (k + 1) = i + 1 + k from by omega] at this)
    refine ⟨l1 ++ l2, by rw [graphEdges, h1, Res.bind_ok, h4, Res.bind_ok], ?_, ?_⟩
    · rw [List.nodup_append]
      refine ⟨h2, h5, ?_⟩
      rintro ⟨a, b⟩ hab ⟨c, d⟩ hcd heq
      simp only [Prod.mk.injEq] at heq
      have h7 := ((h3 a b).1 hab).1
      obtain ⟨k, e', -, h8, -⟩ := (h6 c d).1 hcd
      omega
    · intro a b
      rw [List.mem_append, h3, h6]
      constructor
      · rintro (⟨h7, h8⟩ | ⟨k, e', h7, h8, h9⟩)
        · exact ⟨0, e, rfl, h7, h8⟩
        · exact ⟨k + 1, e', by simpa using h7, by omega, by
            rwa [show i + (k + 1) = i + 1 + k from by omega]⟩
      · rintro ⟨k, e', h7, h8, h9⟩
        cases k with
        | zero =>
          simp only [List.getElem?_cons_zero, Option.some.injEq] at h7
          subst h7
          exact .inl ⟨h8, h9⟩
        | succ k =>
          exact .inr ⟨k, e', by simpa using h7, by omega, by
            rwa [show i + 1 + k = i + (k + 1) from by omega]⟩

theorem graphEdges_wf {P : Fn K → Prop} {nvars : Nat} {dc : List (Expr K)} (h : WF P nvars dc)
    (hl : dc.length ≤ 2 ^ 32) :
    ∃ es, graphEdges nvars 0 dc = .ok es ∧ GraphOk dc.length nvars es ∧
      ∀ i f args j, nvars ≤ i → dc[i]? = some (.fn f args) → .var (uname j) ∈ args →
        (j + 1, i + 1) ∈ es := by
  obtain ⟨es, h1, h2, h3⟩ := graphEdges_eq (nvars := nvars) dc 0 (by omega) (fun k e he hn => by
    obtain ⟨f, args, rfl, -, ha⟩ := h.elem k e he (by omega)
    exact ⟨f, args, rfl, by rwa [Nat.zero_add]⟩)
  simp only [Nat.zero_add] at h3
  have hlt : ∀ {k : Nat} {e : Expr K}, dc[k]? = some e → k < dc.length := fun {k e} he => by
    by_contra hc
    rw [List.getElem?_eq_none (by omega)] at he
    cases he
  refine ⟨es, h1, ⟨h2, ?_, ?_, ?_, h.len⟩, ?_⟩
  · intro s t hst
    obtain ⟨k, e, he, rfl, hE⟩ := (h3 s t).1 hst
    refine ⟨?_, hlt he⟩
    unfold EdgeTo at hE
    split at hE
    · omega
    · rename_i hc
      push Not at hc
      obtain ⟨j, hj, rfl⟩ := hE
      obtain ⟨f, args, rfl, -, ha⟩ := h.elem k e he hc.1
      obtain ⟨m, hm, h4⟩ := ha _ ((mem_variables ha _).1 hj)
      have := uname_inj h4
      omega
  · intro t ht hn
    obtain ⟨k, rfl⟩ : ∃ k, t = k + 1 := ⟨t - 1, by omega⟩
    have hk : k < dc.length := hn
    have he : dc[k]? = some dc[k] := List.getElem?_eq_getElem hk
    by_cases hc : k < nvars ∨ dc[k].variables = []
    · exact ⟨0, (h3 _ _).2 ⟨k, _, he, rfl, by unfold EdgeTo; rw [if_pos hc]⟩⟩
    · have hc' := hc
      push Not at hc'
      obtain ⟨s, hs⟩ := List.exists_mem_of_ne_nil _ hc'.2
      obtain ⟨f, args, hf, -, ha⟩ := h.elem k _ he hc'.1
      obtain ⟨j, hj, rfl⟩ : ∃ j, j < k ∧ s = uname j := by
        rw [hf] at hs
        exact ha _ ((mem_variables ha s).1 hs)
      exact ⟨j + 1, (h3 _ _).2 ⟨k, _, he, rfl, by unfold EdgeTo; rw [if_neg hc]; exact ⟨j, hs, rfl⟩⟩⟩
  · intro t ht hn
    obtain ⟨k, rfl⟩ : ∃ k, t = k + 1 := ⟨t - 1, by omega⟩
    have hk : k < dc.length := by have := h.len; omega
    have he : dc[k]? = some dc[k] := List.getElem?_eq_getElem hk
    refine ⟨(h3 _ _).2 ⟨k, _, he, rfl, by unfold EdgeTo; rw [if_pos (.inl (by omega))]⟩, fun s hs => ?_⟩
    obtain ⟨k', e, -, h4, hE⟩ := (h3 s _).1 hs
    obtain rfl : k = k' := by omega
    unfold EdgeTo at hE
    rwa [if_pos (.inl (by omega))] at hE
  · intro i f args j hi he hj
    obtain ⟨f', args', h4, -, ha⟩ := h.elem i _ he hi
    simp only [Expr.fn.injEq] at h4
    obtain ⟨rfl, rfl⟩ := h4
    refine (h3 _ _).2 ⟨i, _, he, rfl, ?_⟩
    have hv := (mem_variables ha (uname j) (f := f)).2 hj
    unfold EdgeTo
    rw [if_neg]
    · exact ⟨j, hv, rfl⟩
    · push Not
      exact ⟨hi, List.ne_nil_of_mem hv⟩

/-! ### The remapping -/

/-- A reordering of the elements: `idx` contains the indices of the elements in the new order, the first
`nvars` ones are unchanged, and the dependencies of an element are before it. -/
structure Reorder (nvars n : Nat) (idx : List Nat) : Prop where
  perm : idx.Perm (List.range n)
  vars : idx.take nvars = List.range nvars
  nvars_le : nvars ≤ n

/-- The renaming of a reordering. -/
def remapOf (nvars : Nat) (idx : List Nat) : List (String × String) :=
  ((idx.zipIdx).drop nvars).map fun p => (uname p.1, uname p.2)

theorem Reorder.getElem_var {nvars n : Nat} {idx : List Nat} (h : Reorder nvars n idx) {k : Nat}
    (hk : k < nvars) : idx[k]? = some k := by
  have h1 : (idx.take nvars)[k]? = some k := by rw [h.vars, List.getElem?_range hk]
  rwa [List.getElem?_take_of_lt hk] at h1

theorem Reorder.nodup {nvars n : Nat} {idx : List Nat} (h : Reorder nvars n idx) : idx.Nodup :=
  h.perm.nodup_iff.2 List.nodup_range

theorem Reorder.length {nvars n : Nat} {idx : List Nat} (h : Reorder nvars n idx) : idx.length = n := by
  rw [h.perm.length_eq, List.length_range]

theorem Reorder.inj {nvars n : Nat} {idx : List Nat} (h : Reorder nvars n idx) {k l i : Nat}
    (hk : idx[k]? = some i) (hl : idx[l]? = some i) : k = l :=
  (List.getElem?_inj (by
    by_contra hc
    rw [List.getElem?_eq_none (Nat.le_of_not_lt hc)] at hk
    cases hk) h.nodup).1 (hk.trans hl.symm)

/-- An index is not below `nvars` if its position is not. -/
theorem Reorder.ge {nvars n : Nat} {idx : List Nat} (h : Reorder nvars n idx) {k i : Nat}
    (hk : idx[k]? = some i) (hn : nvars ≤ k) : nvars ≤ i := by
  by_contra hc
  have := h.inj hk (h.getElem_var (k := i) (by omega))
  omega

theorem lookup_of_nodup {l : List (String × String)} (h : (l.map Prod.fst).Nodup) {a b : String}
    (hm : (a, b) ∈ l) : l.lookup a = some b := by
  induction l with
  | nil => cases hm
  | cons p l ih =>
    obtain ⟨c, d⟩ := p
    rw [List.map_cons, List.nodup_cons] at h
    rw [List.lookup_cons]
    rcases List.mem_cons.1 hm with h1 | h1
    · simp only [Prod.mk.injEq] at h1
      rw [h1.1, h1.2]; simp
    · have : (a == c) = false := by
        simp only [beq_eq_false_iff_ne, ne_eq]
        rintro rfl
        exact h.1 (List.mem_map.2 ⟨(a, b), h1, rfl⟩)
      rw [this]
      exact ih h.2 h1

theorem lookup_none {l : List (String × String)} {a : String} (h : ∀ p ∈ l, p.1 ≠ a) :
    l.lookup a = none := by
  induction l with
  | nil => rfl
  | cons p l ih =>
    obtain ⟨c, d⟩ := p
    rw [List.lookup_cons]
    have : (a == c) = false := by
      simp only [beq_eq_false_iff_ne, ne_eq]
      rintro rfl
      exact h _ List.mem_cons_self rfl
    rw [this]
    exact ih fun p hp => h p (List.mem_cons_of_mem _ hp)

theorem zipIdx_getElem? {idx : List Nat} {k i : Nat} (h : idx[k]? = some i) :
    (idx.zipIdx)[k]? = some (i, k) := by
  rw [List.getElem?_zipIdx, h]; simp

theorem remapOf_lookup {nvars n : Nat} {idx : List Nat} (h : Reorder nvars n idx) {k i : Nat}
    (hk : idx[k]? = some i) : renName (fun s => (remapOf nvars idx).lookup s) (uname i) = uname k := by
  simp only [renName]
  rcases Nat.lt_or_ge k nvars with hlt | hge
  · have : i = k := by
      have := h.getElem_var hlt
      rw [hk] at this
      simpa using this
    subst this
    rw [lookup_none]
    · rfl
    · rintro ⟨a, b⟩ hp hc
      obtain ⟨⟨x, m⟩, hm, h2⟩ := List.mem_map.1 hp
      simp only [Prod.mk.injEq] at h2 hc
      obtain ⟨j, hj⟩ := List.mem_iff_getElem?.1 hm
      rw [List.getElem?_drop, List.getElem?_zipIdx] at hj
      simp only [Option.map_eq_some_iff, Prod.mk.injEq] at hj
      obtain ⟨y, h3, rfl, h4⟩ := hj
      rw [hc] at h2
      have h5 := uname_inj h2.1
      subst h5
      have := h.inj h3 hk
      omega
  · rw [lookup_of_nodup (b := uname k)]
    · rfl
    · unfold remapOf
      rw [List.map_map]
      have : (Prod.fst ∘ fun p : Nat × Nat => (uname p.1, uname p.2)) = uname ∘ Prod.fst := rfl
      rw [this, ← List.map_map, List.map_drop, List.zipIdx_map_fst]
      exact (h.nodup.sublist (List.drop_sublist _ _)).map fun a b hab => uname_inj hab
    · refine List.mem_map.2 ⟨(i, k), ?_, rfl⟩
      refine List.mem_iff_getElem?.2 ⟨k - nvars, ?_⟩
      rw [List.getElem?_drop, show nvars + (k - nvars) = k from by omega]
      exact zipIdx_getElem? hk

theorem Reorder.exists_pos {nvars n : Nat} {idx : List Nat} (h : Reorder nvars n idx) {i : Nat}
    (hi : i < n) : ∃ k, k < n ∧ idx[k]? = some i := by
  have : i ∈ idx := h.perm.mem_iff.2 (List.mem_range.2 hi)
  obtain ⟨k, hk⟩ := List.mem_iff_getElem?.1 this
  refine ⟨k, ?_, hk⟩
  by_contra hc
  rw [List.getElem?_eq_none (by rw [h.length]; omega)] at hk
  cases hk

theorem filterMap_getElem? {dc : List (Expr K)} {idx : List Nat} (h : ∀ i ∈ idx, i < dc.length) :
    (idx.filterMap fun i => dc[i]?).length = idx.length ∧
    ∀ k : Nat, (idx.filterMap fun i => dc[i]?)[k]? = idx[k]?.bind fun i => dc[i]? := by
  induction idx with
  | nil => simp
  | cons i idx ih =>
    obtain ⟨h1, h2⟩ := ih fun i hi => h i (List.mem_cons_of_mem _ hi)
    have hi := h i List.mem_cons_self
    rw [List.filterMap_cons, List.getElem?_eq_getElem hi]
    refine ⟨by simp [h1], fun k => ?_⟩
    cases k with
    | zero => simp [hi]
    | succ k => simp only [List.getElem?_cons_succ]; exact h2 k

/-! ### The result of the sort -/

/-- The sorted decomposition: with enough fuel the sort ends, and whenever it ends the result consists of
the same elements in another order, with the names adapted. -/
theorem sortDc_eq {P : Fn K → Prop} {nvars nouts : Nat} {dc : List (Expr K)}
    (h : DcOk P nvars nouts dc) (hl : dc.length ≤ 2 ^ 32) (fuel : Nat) :
    (∀ r, sortDc fuel nvars nouts dc = some r → ∃ idx, Reorder nvars (dc.length - nouts) idx ∧
      r = .ok ((idx.filterMap (fun i => dc[i]?) ++ dcOuts nouts dc).map (renameIn (remapOf nvars idx))) ∧
      ∀ (k i : Nat) (f : Fn K) (args : List (Expr K)) (j : Nat), nvars ≤ i → idx[k]? = some i →
        dc[i]? = some (.fn f args) → .var (uname j) ∈ args → ∃ l : Nat, l < k ∧ idx[l]? = some j) ∧
    (dc.length + 1 ≤ fuel → ∃ r, sortDc fuel nvars nouts dc = some r) := by
  have hlen := h.len
  have hn : (dc.take (dc.length - nouts)).length = dc.length - nouts := by simp
  obtain ⟨es, h1, h2, h3⟩ := graphEdges_wf h.wf (by omega)
  rw [hn] at h2
  obtain ⟨h4, h5⟩ := kahn_spec h2 fuel
  unfold sortDc
  simp only [h1]
  constructor
  · intro r hr
    cases hk : kahnLoop fuel es [0] [] with
    | none => rw [hk] at hr; cases hr
    | some p =>
      obtain ⟨res, es'⟩ := p
      obtain ⟨h6, h7, h8, h9⟩ := h4 _ hk
      simp only at h6 h7 h8 h9
      subst h7
      rw [hk] at hr
      simp only at hr
      obtain ⟨rest, rfl⟩ := h8
      have hr0 : List.range (nvars + 1) = 0 :: (List.range nvars).map (· + 1) := List.range_succ_eq_map
      have hro : Reorder nvars (dc.length - nouts)
          ((List.range (nvars + 1) ++ rest).tail.map (· - 1)) := by
        rw [hr0] at h6 ⊢
        rw [List.cons_append, List.tail_cons]
        rw [List.cons_append, List.range_succ_eq_map, List.perm_cons] at h6
        refine ⟨?_, ?_, by omega⟩
        · have := h6.map (· - 1)
          refine this.trans ?_
          rw [List.map_map]
          simp [Function.comp_def]
        · rw [List.map_append, List.map_map]
          have : ((fun x : Nat => x - 1) ∘ fun x => x + 1) = id := by funext x; simp
          rw [this, List.map_id, List.take_left' (by simp)]
      have hfm := filterMap_getElem? (dc := dc) (idx := (List.range (nvars + 1) ++ rest).tail.map (· - 1))
        (fun i hi => by
          have := List.mem_range.1 (hro.perm.mem_iff.1 hi)
          omega)
      rw [if_neg (by simp [h6.length_eq]), if_neg (fun hc => hc hro.vars),
        if_neg (by rw [hfm.1, hro.length]; simp)] at hr
      simp only [Option.some.injEq] at hr
      refine ⟨_, hro, hr.symm, ?_⟩
      intro k i f args j hi hki hf hj
      have hin : i < dc.length - nouts := by
        have : i ∈ (List.range (nvars + 1) ++ rest).tail.map (· - 1) := List.mem_of_getElem? hki
        exact List.mem_range.1 (hro.perm.mem_iff.1 this)
      have hedge := h3 i f args j hi (by rw [List.getElem?_take_of_lt hin]; exact hf) hj
      have hpos : (List.range (nvars + 1) ++ rest)[k + 1]? = some (i + 1) := by
        rw [hr0] at hki ⊢
        rw [List.cons_append, List.tail_cons, List.getElem?_map, Option.map_eq_some_iff] at hki
        obtain ⟨x, hx, hx2⟩ := hki
        rw [List.cons_append, List.getElem?_cons_succ, hx]
        have : x ≠ 0 := by
          rintro rfl
          have hnd := h6.nodup_iff.2 List.nodup_range
          rw [hr0, List.cons_append, List.nodup_cons] at hnd
          exact hnd.1 (List.mem_of_getElem? hx)
        congr 1
        omega
      have hlt : k + 1 < (List.range (nvars + 1) ++ rest).length := by
        by_contra hc
        rw [List.getElem?_eq_none (by omega)] at hpos
        cases hpos
      have hsplit := List.take_append_drop (k + 1) (List.range (nvars + 1) ++ rest)
      rw [List.drop_eq_getElem_cons hlt] at hsplit
      have hel : (List.range (nvars + 1) ++ rest)[k + 1] = i + 1 := by
        rw [List.getElem?_eq_getElem hlt] at hpos
        simpa using hpos
      rw [hel] at hsplit
      have hmem := h9 _ _ _ hsplit.symm (j + 1) hedge
      obtain ⟨m, hm⟩ := List.mem_iff_getElem?.1 hmem
      have hmk : m < k + 1 := by
        by_contra hc
        rw [List.getElem?_eq_none (by rw [List.length_take]; omega)] at hm
        cases hm
      rw [List.getElem?_take_of_lt hmk] at hm
      cases m with
      | zero =>
        rw [hr0, List.cons_append, List.getElem?_cons_zero] at hm
        simp at hm
      | succ m =>
        refine ⟨m, by omega, ?_⟩
        rw [hr0] at hm ⊢
        rw [List.cons_append, List.getElem?_cons_succ] at hm
        rw [List.cons_append, List.tail_cons, List.getElem?_map, hm]
        simp
  · intro hf
    obtain ⟨⟨res, es'⟩, hr⟩ := h5 (by omega)
    rw [hr]
    simp only
    split
    · exact ⟨_, rfl⟩
    · split
      · exact ⟨_, rfl⟩
      · split <;> exact ⟨_, rfl⟩

section
variable [Field K] [LinearOrder K] [Interp K]

/-- A reordered decomposition is well-formed, and its outputs have the same values. -/
theorem reorder_ok {P : Fn K → Prop} {nvars nouts : Nat} {dc : List (Expr K)} (h : DcOk P nvars nouts dc)
    {idx : List Nat} (hro : Reorder nvars (dc.length - nouts) idx)
    (hdep : ∀ (k i : Nat) (f : Fn K) (args : List (Expr K)) (j : Nat), nvars ≤ i → idx[k]? = some i →
      dc[i]? = some (.fn f args) → .var (uname j) ∈ args → ∃ l : Nat, l < k ∧ idx[l]? = some j)
    {dc' : List (Expr K)} (hdc : dc' =
      (idx.filterMap (fun i => dc[i]?) ++ dcOuts nouts dc).map (renameIn (remapOf nvars idx))) :
    DcOk P nvars nouts dc' ∧ dc'.length = dc.length ∧
    (∀ k : Nat, k < dc.length - nouts → ∃ i : Nat, idx[k]? = some i ∧
      dc'[k]? = (dc[i]?).map (renameIn (remapOf nvars idx))) ∧
    ∀ (v : Env K) (val val' : String → Option K), Sat v nvars (dc.take (dc.length - nouts)) val →
      Sat v nvars (dc'.take (dc'.length - nouts)) val' →
      (dcOuts nouts dc').map (argV v val') = (dcOuts nouts dc).map (argV v val) := by
  have hlen := h.len
  have hidx : ∀ i ∈ idx, i < dc.length - nouts := fun i hi =>
    List.mem_range.1 (hro.perm.mem_iff.1 hi)
  obtain ⟨hf1, hf2⟩ := filterMap_getElem? (dc := dc) (idx := idx) fun i hi => by
    have := hidx i hi; omega
  have hol : (dcOuts nouts dc).length = nouts := by rw [dcOuts, List.length_drop]; omega
  have hl' : dc'.length = dc.length := by
    rw [hdc, List.length_map, List.length_append, hf1, hro.length, hol]; omega
  have htake : dc'.take (dc'.length - nouts) =
      (idx.filterMap fun i => dc[i]?).map (renameIn (remapOf nvars idx)) := by
    rw [hl', hdc, List.map_append, List.take_left']
    rw [List.length_map, hf1, hro.length]
  have houts : dcOuts nouts dc' = (dcOuts nouts dc).map (renameIn (remapOf nvars idx)) := by
    rw [dcOuts, hl', hdc, List.map_append, List.drop_left']
    rw [List.length_map, hf1, hro.length]
  have hget : ∀ k i : Nat, idx[k]? = some i → (dc'.take (dc'.length - nouts))[k]? =
      (dc[i]?).map (renameIn (remapOf nvars idx)) := by
    intro k i hk
    rw [htake, List.getElem?_map, hf2, hk, Option.bind_some]
  have hpos : ∀ k : Nat, k < dc.length - nouts → ∃ i, idx[k]? = some i := fun k hk =>
    ⟨_, List.getElem?_eq_getElem (by rw [hro.length]; exact hk)⟩
  have hren : ∀ j, j < dc.length - nouts →
      ∃ l : Nat, l < dc.length - nouts ∧ idx[l]? = some j ∧
        renName (fun s => (remapOf nvars idx).lookup s) (uname j) = uname l := by
    intro j hj
    obtain ⟨l, h1, h2⟩ := hro.exists_pos hj
    exact ⟨l, h1, h2, remapOf_lookup hro h2⟩
  have hwf : ∀ k i : Nat, idx[k]? = some i → nvars ≤ k → ∃ f args, dc[i]? = some (.fn f args) ∧ P f ∧
      (∀ a ∈ args, ArgOk i a) ∧
      ∀ a ∈ args, ArgOk k (a.mapNodes (renameLeaf fun s => (remapOf nvars idx).lookup s) id) := by
    intro k i hk hn
    have hi := hidx i (List.mem_of_getElem? hk)
    have hge := hro.ge hk hn
    have he : (dc.take (dc.length - nouts))[i]? = some (dc[i]'(by omega)) := by
      rw [List.getElem?_take_of_lt hi, List.getElem?_eq_getElem]
    obtain ⟨f, args, h1, h2, h3⟩ := h.wf.elem i _ he hge
    have he' : dc[i]? = some (.fn f args) := by rw [← h1, List.getElem?_eq_getElem]
    refine ⟨f, args, he', h2, h3, fun a ha => ?_⟩
    have hok := h3 a ha
    rw [rename_arg _ hok]
    cases a with
    | var s =>
      obtain ⟨j, hj, rfl⟩ := hok
      obtain ⟨l, h4, h5⟩ := hdep k i f args j hge hk he' ha
      rw [renameLeaf_var]
      exact ⟨l, h4, by rw [remapOf_lookup hro h5]⟩
    | fn f as => exact hok
    | _ => trivial
  refine ⟨⟨by omega, ⟨?_, ?_⟩, ?_⟩, hl', ?_, ?_⟩
  · rw [List.length_take]; omega
  · intro k e he hn
    have hk : k < dc.length - nouts := by
      by_contra hc
      rw [List.getElem?_eq_none (by rw [List.length_take]; omega)] at he
      cases he
    obtain ⟨i, hi⟩ := hpos k hk
    obtain ⟨f, args, h1, h2, h3, h4⟩ := hwf k i hi hn
    rw [hget k i hi, h1, Option.map_some, renameIn, rename_fn] at he
    simp only [Option.some.injEq] at he
    refine ⟨f, _, he.symm, h2, fun a ha => ?_⟩
    obtain ⟨b, hb, rfl⟩ := List.mem_map.1 ha
    exact h4 b hb
  · intro a ha
    rw [houts] at ha
    obtain ⟨b, hb, rfl⟩ := List.mem_map.1 ha
    rw [hl']
    refine argOk_rename (h.outs b hb) fun j hj => ?_
    obtain ⟨l, h1, -, h2⟩ := hren j hj
    exact ⟨l, h1, h2⟩
  · intro k hk
    obtain ⟨i, hi⟩ := hpos k hk
    refine ⟨i, hi, ?_⟩
    rw [← hget k i hi, List.getElem?_take_of_lt (by omega)]
  · intro v val val' hs hs'
    have hval : ∀ k : Nat, k < dc.length - nouts → ∀ i, idx[k]? = some i → val' (uname k) = val (uname i) := by
      intro k
      induction k using Nat.strong_induction_on with
      | _ k ih =>
        intro hk i hi
        rcases Nat.lt_or_ge k nvars with hlt | hge
        · have := hro.getElem_var hlt
          rw [hi] at this
          simp only [Option.some.injEq] at this
          subst this
          rw [hs'.ins i hlt, hs.ins i hlt]
        · obtain ⟨f, args, h1, h2, h3, h4⟩ := hwf k i hi hge
          have hin := hidx i (List.mem_of_getElem? hi)
          rw [hs.elem i (.fn f args) (by rw [List.getElem?_take_of_lt hin]; exact h1) (hro.ge hi hge),
            hs'.elem k _ (by rw [hget k i hi, h1]; rfl) hge, renameIn, rename_fn]
          simp only [elemV, List.map_map]
          congr 1
          refine List.map_congr_left fun a ha => ?_
          rw [Function.comp_apply, rename_arg _ (h3 a ha)]
          cases a with
          | var s =>
            obtain ⟨j, hj, rfl⟩ := h3 _ ha
            obtain ⟨l, h5, h6⟩ := hdep k i f args j (hro.ge hi hge) hi h1 ha
            rw [renameLeaf_var, remapOf_lookup hro h6]
            exact ih l h5 (by omega) j h6
          | _ => rfl
    rw [houts, List.map_map]
    refine List.map_congr_left fun a ha => ?_
    refine argV_rename (h.outs a ha) fun j hj => ?_
    obtain ⟨l, h1, h2, h3⟩ := hren j hj
    rw [h3]
    exact hval l h1 j h2

end

end Heyoka.Sym

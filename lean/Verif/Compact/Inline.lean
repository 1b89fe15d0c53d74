import Verif.Compact.Tree
import Verif.Decomp.Sort
import Verif.Decomp.Params

/-!
# Inlining
-/

set_option linter.unusedSectionVars false

namespace Heyoka.Sym

variable {K : Type}

/-! ### Replacement of the leaves -/

theorem ArgOk.var_of {i : Nat} {s : String} (h : ArgOk i (.var s : Expr K)) : ∃ j, j < i ∧ s = uname j := h

theorem argOk_leaf {i : Nat} {a : Expr K} (h : ArgOk i a) : a.isFn = false := by
  cases a with
  | fn f as => exact h.elim
  | _ => rfl

theorem leaves_leaf {e : Expr K} (h : e.isFn = false) : e.leaves = [e] := by
  cases e with
  | fn f as => simp [Expr.isFn] at h
  | _ => rfl

theorem mapNodes_leaf {g : Expr K → Expr K} {e : Expr K} (h : e.isFn = false) : e.mapNodes g id = g e := by
  cases e with
  | fn f as => simp [Expr.isFn] at h
  | _ => rfl

theorem mapNodes_fn (g : Expr K → Expr K) (f : Fn K) (as : List (Expr K)) :
    (Expr.fn f as).mapNodes g id = .fn f (as.map (Expr.mapNodes g id)) := by
  rw [Expr.mapNodes, Expr.mapNodesL_eq_map]
  rfl

theorem mem_leaves_mapNodes {g : Expr K → Expr K} {a : Expr K} (e : Expr K) :
    a ∈ (e.mapNodes g id).leaves ↔ ∃ b ∈ e.leaves, a ∈ (g b).leaves := by
  induction e using Expr.ind with
  | fn f as ih =>
    rw [mapNodes_fn, Expr.leaves, Expr.leaves, mem_leavesL]
    constructor
    · rintro ⟨e, he, ha⟩
      obtain ⟨x, hx, rfl⟩ := List.mem_map.1 he
      obtain ⟨b, hb, h⟩ := (ih x hx).1 ha
      exact ⟨b, mem_leavesL.2 ⟨x, hx, hb⟩, h⟩
    · rintro ⟨b, hb, h⟩
      obtain ⟨x, hx, hb⟩ := mem_leavesL.1 hb
      exact ⟨_, List.mem_map_of_mem hx, (ih x hx).2 ⟨b, hb, h⟩⟩
  | num n => rw [mapNodes_leaf rfl]; simp [Expr.leaves]
  | var n => rw [mapNodes_leaf rfl]; simp [Expr.leaves]
  | par n => rw [mapNodes_leaf rfl]; simp [Expr.leaves]

theorem isFn_of_mem_leaves {e a : Expr K} (h : a ∈ e.leaves) : a.isFn = false := ((mem_leaves e).1 h).2

section
variable [Interp K]

theorem treeVal_leaf (v : Env K) (L : Expr K → Option K) {e : Expr K} (h : e.isFn = false) : treeVal v L e = L e := by
  cases e with
  | fn f as => simp [Expr.isFn] at h
  | _ => rfl

theorem treeVal_fn (v : Env K) (L : Expr K → Option K) (f : Fn K) (as : List (Expr K)) :
    treeVal v L (.fn f as) = appO v f (as.map (treeVal v L)) := by rw [treeVal, treeValL_eq]

/-- The value of a tree in which the leaves are replaced. -/
theorem treeVal_mapNodes {v : Env K} {L L' : Expr K → Option K} {g : Expr K → Expr K} (e : Expr K)
    (h : ∀ a ∈ e.leaves, treeVal v L (g a) = L' a) : treeVal v L (e.mapNodes g id) = treeVal v L' e := by
  induction e using Expr.ind with
  | fn f as ih =>
    rw [mapNodes_fn, treeVal_fn, treeVal_fn, List.map_map]
    congr 1
    exact List.map_congr_left fun x hx => ih x hx fun a ha => h a (mem_leavesL.2 ⟨x, hx, ha⟩)
  | num n => rw [mapNodes_leaf rfl, treeVal_leaf v L' rfl]; exact h _ (by simp [Expr.leaves])
  | var n => rw [mapNodes_leaf rfl, treeVal_leaf v L' rfl]; exact h _ (by simp [Expr.leaves])
  | par n => rw [mapNodes_leaf rfl, treeVal_leaf v L' rfl]; exact h _ (by simp [Expr.leaves])

end

section
variable [Field K] [LinearOrder K] [FloorRing K] [Interp K] [CodeInterp K] [FmtName K]

theorem powAlgo_notNum {e : Expr K} (h : ∀ n, e ≠ .num n) : powAlgo e = .general := by
  cases e with
  | num n => exact absurd rfl (h n)
  | _ => rfl

theorem prodIsNegation_notNum {e : Expr K} (h : ∀ n, e ≠ .num n) (l : List (Expr K)) :
    prodIsNegation (e :: l) = false := by
  cases e with
  | num n => exact absurd rfl (h n)
  | _ => rfl

/-- A replacement which does not touch the numbers. -/
def KeepsNum (g : Expr K → Expr K) : Prop :=
  (∀ n, g (.num n) = .num n) ∧ ∀ a, (∀ n, a ≠ .num n) → ∀ n, g a ≠ .num n

theorem KeepsNum.mapNodes {g : Expr K → Expr K} (h : KeepsNum g) : KeepsNum (Expr.mapNodes g id) := by
  refine ⟨fun n => by rw [mapNodes_leaf rfl]; exact h.1 n, fun a ha n => ?_⟩
  cases a with
  | fn f as => rw [mapNodes_fn]; simp
  | num m => exact absurd rfl (ha m)
  | var s => rw [mapNodes_leaf rfl]; exact h.2 _ ha n
  | par s => rw [mapNodes_leaf rfl]; exact h.2 _ ha n

theorem codeOf_map {g : Expr K → Expr K} (h : KeepsNum g) (f : Fn K) (args : List (Expr K)) :
    codeOf f (args.map g) = codeOf f args := by
  cases f with
  | pow a =>
    match args with
    | [] => rfl
    | [_] => rfl
    | [x, y] =>
      show Fn.pow (powAlgo (g y)) = Fn.pow (powAlgo y)
      congr 1
      cases y with
      | num n => rw [h.1]
      | _ => rw [powAlgo_notNum (h.2 _ (by simp)), powAlgo_notNum (by simp)]
    | _ :: _ :: _ :: _ => rfl
  | prod b =>
    show Fn.prod (prodIsNegation (args.map g)) = Fn.prod (prodIsNegation args)
    congr 1
    match args with
    | [] => rfl
    | [x] =>
      show prodIsNegation [g x] = prodIsNegation [x]
      cases x <;> cases g _ <;> rfl
    | x :: y :: l =>
      show prodIsNegation (g x :: g y :: l.map g) = prodIsNegation (x :: y :: l)
      cases x with
      | num n => rw [h.1]; rfl
      | _ => rw [prodIsNegation_notNum (h.2 _ (by simp)), prodIsNegation_notNum (by simp)]
  | _ => rfl

theorem TreeOk.mapNodes {P : Fn K → Prop} {T : Prop} {g : Expr K → Expr K} (hg : KeepsNum g) (e : Expr K)
    (he : e.TreeOk P T) (h : ∀ a ∈ e.leaves, (g a).TreeOk P T) : (e.mapNodes g id).TreeOk P T := by
  induction e using Expr.ind with
  | fn f as ih =>
    rw [treeOk_fn] at he
    rw [mapNodes_fn, treeOk_fn, codeOf_map hg.mapNodes]
    refine ⟨he.1, fun a ha => ?_⟩
    obtain ⟨x, hx, rfl⟩ := List.mem_map.1 ha
    exact ih x hx (he.2 x hx) fun a ha => h a (mem_leavesL.2 ⟨x, hx, ha⟩)
  | num n => rw [mapNodes_leaf rfl]; exact h _ (by simp [Expr.leaves])
  | var n => rw [mapNodes_leaf rfl]; exact h _ (by simp [Expr.leaves])
  | par n => rw [mapNodes_leaf rfl]; exact h _ (by simp [Expr.leaves])


/-! ### The renumbering -/

/-- The new index of the element `k`. -/
def shiftU (inl : List Nat) (k : Nat) : Nat := k - (inl.takeWhile (· < k)).length

theorem takeWhile_sorted {inl : List Nat} (h : inl.Pairwise (· < ·)) (k : Nat) :
    (inl.takeWhile (· < k)).length = inl.countP (· < k) := by
  induction inl with
  | nil => rfl
  | cons x l ih =>
    rw [List.pairwise_cons] at h
    rw [List.takeWhile_cons, List.countP_cons]
    by_cases hx : x < k
    · simp only [hx, decide_true, if_true, List.length_cons]
      rw [ih h.2]
    · simp only [hx, decide_false, Bool.false_eq_true, if_false, List.length_nil]
      symm
      rw [Nat.add_zero, List.countP_eq_zero]
      intro y hy
      have := h.1 y hy
      simp; omega

theorem countP_succ {inl : List Nat} (h : inl.Nodup) (k : Nat) :
    inl.countP (· < k + 1) = inl.countP (· < k) + if k ∈ inl then 1 else 0 := by
  induction inl with
  | nil => rfl
  | cons x l ih =>
    rw [List.nodup_cons] at h
    rw [List.countP_cons, List.countP_cons, ih h.2]
    rcases Nat.lt_trichotomy x k with hx | rfl | hx
    · have : k ≠ x := by omega
      simp [hx, this, Nat.lt_succ_of_lt hx]; omega
    · simp [h.1]
    · have h1 : ¬ x < k + 1 := by omega
      have h2 : ¬ x < k := by omega
      have h3 : k ≠ x := by omega
      simp [h1, h2, h3]

theorem countP_le {inl : List Nat} (h : inl.Nodup) (k : Nat) : inl.countP (· < k) ≤ k := by
  induction k with
  | zero => simp
  | succ k ih => rw [countP_succ h]; split_ifs <;> omega

theorem pairwise_lt_nodup {l : List Nat} (h : l.Pairwise (· < ·)) : l.Nodup := h.imp fun h => Nat.ne_of_lt h

theorem shiftU_succ {inl : List Nat} (h : inl.Pairwise (· < ·)) (k : Nat) :
    shiftU inl (k + 1) = shiftU inl k + if k ∈ inl then 0 else 1 := by
  have h1 := countP_succ (pairwise_lt_nodup h) k
  have h2 := countP_le (pairwise_lt_nodup h) k
  rw [shiftU, shiftU, takeWhile_sorted h, takeWhile_sorted h, h1]
  split_ifs <;> omega

theorem shiftU_mono {inl : List Nat} (h : inl.Pairwise (· < ·)) {j : Nat} (k : Nat) :
    shiftU inl j ≤ shiftU inl (j + k) := by
  induction k with
  | zero => exact Nat.le_refl _
  | succ k ih => rw [← Nat.add_assoc, shiftU_succ h]; omega

theorem shiftU_lt {inl : List Nat} (h : inl.Pairwise (· < ·)) {j k : Nat} (hj : j ∉ inl) (hjk : j < k) :
    shiftU inl j < shiftU inl k := by
  have h1 := shiftU_mono h (j := j + 1) (k - (j + 1))
  rw [show j + 1 + (k - (j + 1)) = k by omega, shiftU_succ h, if_neg hj] at h1
  omega

theorem shiftU_inj {inl : List Nat} (h : inl.Pairwise (· < ·)) {j k : Nat} (hj : j ∉ inl) (hk : k ∉ inl)
    (he : shiftU inl j = shiftU inl k) : j = k := by
  rcases Nat.lt_trichotomy j k with hlt | heq | hlt
  · have := shiftU_lt h hj hlt; omega
  · exact heq
  · have := shiftU_lt h hk hlt; omega

theorem shiftU_append {inl more : List Nat} (h : (inl ++ more).Pairwise (· < ·)) {i : Nat} (hm : ∀ x ∈ more, i ≤ x)
    {k : Nat} (hk : k ≤ i) : shiftU (inl ++ more) k = shiftU inl k := by
  rw [shiftU, shiftU, takeWhile_sorted h, takeWhile_sorted (List.pairwise_append.1 h).1, List.countP_append]
  have : more.countP (· < k) = 0 := by
    rw [List.countP_eq_zero]
    intro x hx
    have := hm x hx
    simp; omega
  omega

theorem shiftU_all {inl : List Nat} (h : inl.Pairwise (· < ·)) {i : Nat} (hi : ∀ x ∈ inl, x < i) :
    shiftU inl i = i - inl.length ∧ inl.length ≤ i := by
  have h1 : inl.countP (· < i) = inl.length := by
    rw [List.countP_eq_length]
    intro x hx
    simpa using hi x hx
  have h2 := countP_le (pairwise_lt_nodup h) i
  rw [shiftU, takeWhile_sorted h, h1]
  exact ⟨rfl, by omega⟩

theorem shiftU_low {inl : List Nat} (h : inl.Pairwise (· < ·)) {n : Nat} (hi : ∀ x ∈ inl, n ≤ x) {k : Nat} (hk : k ≤ n) :
    shiftU inl k = k := by
  have : inl.countP (· < k) = 0 := by
    rw [List.countP_eq_zero]
    intro x hx
    have := hi x hx
    simp; omega
  rw [shiftU, takeWhile_sorted h, this, Nat.sub_zero]

theorem remapLeaf_var {inl : List Nat} {k : Nat} (hk : k < 2 ^ 32) :
    remapLeaf inl (.var (uname k) : Expr K) = .var (uname (shiftU inl k)) := by
  simp only [remapLeaf]
  rw [unameToIndex_uname, if_pos hk]
  rfl

theorem remapLeaf_keepsNum (inl : List Nat) : KeepsNum (K := K) (remapLeaf inl) := by
  refine ⟨fun _ => rfl, fun a ha n => ?_⟩
  cases a with
  | num m => exact absurd rfl (ha m)
  | var s => simp only [remapLeaf]; split <;> simp
  | par s => simp [remapLeaf]
  | fn f as => simp [remapLeaf]

theorem mapNodes_congr {g g' : Expr K → Expr K} (e : Expr K) (h : ∀ a ∈ e.leaves, g a = g' a) :
    e.mapNodes g id = e.mapNodes g' id := by
  induction e using Expr.ind with
  | fn f as ih =>
    rw [mapNodes_fn, mapNodes_fn]
    congr 1
    exact List.map_congr_left fun x hx => ih x hx fun a ha => h a (mem_leavesL.2 ⟨x, hx, ha⟩)
  | num n => rw [mapNodes_leaf rfl, mapNodes_leaf rfl]; exact h _ (by simp [Expr.leaves])
  | var n => rw [mapNodes_leaf rfl, mapNodes_leaf rfl]; exact h _ (by simp [Expr.leaves])
  | par n => rw [mapNodes_leaf rfl, mapNodes_leaf rfl]; exact h _ (by simp [Expr.leaves])

theorem subsU_keepsNum (i : Nat) {d : Expr K} (hd : d.isFn = true) :
    KeepsNum (K := K) (subsLeaf fun s => if s = uname i then some d else none) := by
  refine ⟨fun _ => rfl, fun a ha n => ?_⟩
  cases a with
  | num m => exact absurd rfl (ha m)
  | var s =>
    simp only [subsLeaf]
    split_ifs
    · rintro h
      simp only [Option.getD_some] at h
      rw [h] at hd
      simp [Expr.isFn] at hd
    · simp
  | par s => simp [subsLeaf]
  | fn f as => simp [subsLeaf]

/-! ### The dependencies -/

theorem mem_dependees {j d : Nat} (ls : List (List Nat)) : ∀ i, d ∈ dependees j i ls ↔
    ∃ (m : Nat) (l : List Nat), ls[m]? = some l ∧ j ∈ l ∧ d = i + m := by
  induction ls with
  | nil => intro i; simp [dependees]
  | cons l ls ih =>
    intro i
    have hx : (∃ (m : Nat) (l' : List Nat), (l :: ls)[m]? = some l' ∧ j ∈ l' ∧ d = i + m) ↔
        (j ∈ l ∧ d = i) ∨ ∃ (m : Nat) (l' : List Nat), ls[m]? = some l' ∧ j ∈ l' ∧ d = i + 1 + m := by
      constructor
      · rintro ⟨m, l', h1, h2, h3⟩
        cases m with
        | zero => simp at h1; subst h1; exact .inl ⟨h2, by omega⟩
        | succ m => exact .inr ⟨m, l', by simpa using h1, h2, by omega⟩
      · rintro (⟨h1, h2⟩ | ⟨m, l', h1, h2, h3⟩)
        · exact ⟨0, l, rfl, h1, by omega⟩
        · exact ⟨m + 1, l', by simpa using h1, h2, by omega⟩
    rw [hx, dependees]
    split_ifs with h
    · rw [List.mem_cons, ih]
      simp [h]
    · rw [ih]
      simp [h]

theorem varIdxs_ok (ss : List String) (h : ∀ s ∈ ss, ∃ j, j < 2 ^ 32 ∧ s = uname j) :
    ∃ is, varIdxs ss = .ok is ∧ ∀ k, k ∈ is ↔ uname k ∈ ss := by
  induction ss with
  | nil => exact ⟨[], rfl, by simp⟩
  | cons s ss ih =>
    obtain ⟨is, h1, h2⟩ := ih fun s hs => h s (List.mem_cons_of_mem _ hs)
    obtain ⟨j, hj, rfl⟩ := h s List.mem_cons_self
    refine ⟨j :: is, ?_, fun k => ?_⟩
    · rw [varIdxs, unameToIndex_uname, if_pos hj, Res.bind_ok, h1]
      rfl
    · rw [List.mem_cons, List.mem_cons, h2, uname_eq_iff]

theorem mem_variables' (e : Expr K) (s : String) : s ∈ e.variables ↔ .var s ∈ e.leaves := by
  rw [Expr.variables, mem_sortedSet, List.mem_filterMap]
  constructor
  · rintro ⟨x, hx, h3⟩
    cases x with
    | var t => simp only [leafVar, Option.some.injEq] at h3; rw [← h3]; exact hx
    | _ => simp [leafVar] at h3
  · exact fun h => ⟨.var s, h, rfl⟩

theorem depLists_ok (nvars : Nat) (es : List (Expr K)) : ∀ i,
    (∀ (k : Nat) (e : Expr K), es[k]? = some e → nvars ≤ i + k → ∀ s, .var s ∈ e.leaves → ∃ j, j < 2 ^ 32 ∧ s = uname j) →
    ∃ ls, depLists nvars i es = .ok ls ∧ ls.length = es.length ∧
      ∀ (k : Nat) (e : Expr K) (l : List Nat), es[k]? = some e → ls[k]? = some l →
        ∀ j, j ∈ l ↔ nvars ≤ i + k ∧ .var (uname j) ∈ e.leaves := by
  induction es with
  | nil => intro i _; exact ⟨[], rfl, rfl, by simp⟩
  | cons e es ih =>
    intro i h
    obtain ⟨ls, h1, h2, h3⟩ := ih (i + 1) fun k e' hk hn => h (k + 1) e' (by simpa using hk) (by omega)
    obtain ⟨l, h4, h5⟩ : ∃ l, (if i < nvars then Res.ok [] else varIdxs e.variables) = .ok l ∧
        ∀ j, j ∈ l ↔ nvars ≤ i ∧ .var (uname j) ∈ e.leaves := by
      split_ifs with hi
      · exact ⟨[], rfl, fun j => by simp; omega⟩
      · obtain ⟨l, h4, h5⟩ := varIdxs_ok e.variables fun s hs =>
          h 0 e rfl (by omega) s ((mem_variables' e s).1 hs)
        refine ⟨l, h4, fun j => ?_⟩
        rw [h5, mem_variables']
        simp; omega
    refine ⟨l :: ls, ?_, by simp [h2], fun k e' l' hk hl => ?_⟩
    · rw [depLists, h4, Res.bind_ok, h1]
      rfl
    · cases k with
      | zero =>
        simp only [List.getElem?_cons_zero, Option.some.injEq] at hk hl
        subst hk; subst hl
        exact h5
      | succ k =>
        simp only [List.getElem?_cons_succ] at hk hl
        intro j
        rw [h3 k e' l' hk hl j, show i + 1 + k = i + (k + 1) by omega]

/-! ### The loop -/

/-- The properties of an element `e` with index `j` during the inlining: `V` holds for the indices of its variables. `S` are the valuations
satisfying the original decomposition. -/
structure ElemInv (P : Fn K → Prop) (T : Prop) (R : Nat → Prop) (S : Env K → (String → Option K) → Prop)
    (V : Nat → Prop) (j : Nat) (e : Expr K) : Prop where
  fn : e.isFn = true
  tree : e.TreeOk P T
  pars : ∀ k, .par k ∈ e.leaves → R k
  vars : ∀ s, .var s ∈ e.leaves → ∃ k, s = uname k ∧ k < j ∧ V k
  val : ∀ v val, S v val → treeVal v (argV v val) e = val (uname j)

variable {P : Fn K → Prop} {T : Prop} {R : Nat → Prop} {S : Env K → (String → Option K) → Prop}

theorem ElemInv.mono {V V' : Nat → Prop} {j : Nat} {e : Expr K} (h : ElemInv P T R S V j e)
    (hV : ∀ k, .var (uname k) ∈ e.leaves → k < j → V k → V' k) : ElemInv P T R S V' j e := by
  refine ⟨h.fn, h.tree, h.pars, fun s hs => ?_, h.val⟩
  obtain ⟨k, rfl, hk, hv⟩ := h.vars s hs
  exact ⟨k, rfl, hk, hV k hs hk hv⟩

theorem ElemInv.subs {V V' : Nat → Prop} {i d : Nat} {ei ed : Expr K} (hi : ElemInv P T R S V i ei)
    (hd : ElemInv P T R S V' d ed) (hid : i < d) :
    ElemInv P T R S (fun k => (V k ∧ k < i) ∨ (V' k ∧ k ≠ i)) d (subsU i ei ed) := by
  have hleaf : ∀ a ∈ (subsU i ei ed).leaves, (a ∈ ed.leaves ∧ a ≠ .var (uname i)) ∨ a ∈ ei.leaves := by
    intro a ha
    obtain ⟨b, hb, h⟩ := (mem_leaves_mapNodes ed).1 ha
    cases b with
    | var s =>
      simp only [subsLeaf] at h
      split_ifs at h with hs
      · exact .inr h
      · simp only [Option.getD_none, Expr.leaves, List.mem_singleton] at h
        subst h
        exact .inl ⟨hb, by simpa using hs⟩
    | fn f as => exact absurd (isFn_of_mem_leaves hb) (by simp [Expr.isFn])
    | num n =>
      simp only [subsLeaf, Expr.leaves, List.mem_singleton] at h
      subst h
      exact .inl ⟨hb, by simp⟩
    | par n =>
      simp only [subsLeaf, Expr.leaves, List.mem_singleton] at h
      subst h
      exact .inl ⟨hb, by simp⟩
  refine ⟨?_, ?_, ?_, ?_, ?_⟩
  · have := hd.fn
    cases ed with
    | fn f as => rw [subsU, mapNodes_fn]; rfl
    | _ => simp [Expr.isFn] at this
  · refine TreeOk.mapNodes (subsU_keepsNum i hi.fn) ed hd.tree fun a ha => ?_
    cases a with
    | var s =>
      simp only [subsLeaf]
      split_ifs
      · exact hi.tree
      · exact treeOk_leaf rfl
    | fn f as => exact absurd (isFn_of_mem_leaves ha) (by simp [Expr.isFn])
    | num n => exact treeOk_leaf rfl
    | par n => exact treeOk_leaf rfl
  · intro k hk
    rcases hleaf _ hk with h | h
    · exact hd.pars k h.1
    · exact hi.pars k h
  · intro s hs
    rcases hleaf _ hs with h | h
    · obtain ⟨k, rfl, h1, h2⟩ := hd.vars s h.1
      exact ⟨k, rfl, h1, .inr ⟨h2, fun hc => h.2 (by rw [hc])⟩⟩
    · obtain ⟨k, rfl, h1, h2⟩ := hi.vars s h
      exact ⟨k, rfl, by omega, .inl ⟨h2, h1⟩⟩
  · intro v val hS
    rw [← hd.val v val hS]
    refine treeVal_mapNodes ed fun a ha => ?_
    cases a with
    | var s =>
      simp only [subsLeaf]
      split_ifs with hs
      · rw [Option.getD_some, hi.val v val hS, hs]
        rfl
      · rfl
    | fn f as => exact absurd (isFn_of_mem_leaves ha) (by simp [Expr.isFn])
    | num n => rfl
    | par n => rfl

theorem inlineInto_some {deps : List (List Nat)} {nuvars i d : Nat} {dc : List (Expr K)} {ed ei : Expr K}
    (h : inlineInto deps nuvars dc i = some (d, ed, ei)) :
    dependees i 0 deps = [d] ∧ d < nuvars ∧ dc[d]? = some ed ∧ dc[i]? = some ei := by
  unfold inlineInto at h
  split at h
  · rename_i d' h1
    split at h
    · rename_i ed' ei' h2 h3
      split_ifs at h with h4
      simp only [Bool.and_eq_true, decide_eq_true_eq] at h4
      simp only [Option.some.injEq, Prod.mk.injEq] at h
      obtain ⟨rfl, rfl, rfl⟩ := h
      exact ⟨h1, h4.1, h2, h3⟩
    · cases h
  · cases h

theorem inlineLoop_ok (hP : LlvmSound P) {deps : List (List Nat)} {nuvars : Nat}
    (hn : nuvars ≤ 2 ^ 32) (hdeps : ∀ (j : Nat) (l : List Nat), deps[j]? = some l → j < nuvars → ∀ k ∈ l, k < j) (k : Nat) :
    ∀ (i : Nat) (cur : List (Expr K)) (inl : List Nat), i + k = nuvars → nuvars ≤ cur.length →
    inl.Pairwise (· < ·) → (∀ x ∈ inl, x < i) →
    (∀ (j : Nat) (e : Expr K), i ≤ j → j < nuvars → cur[j]? = some e →
      ElemInv P T R S (fun k => k ∉ inl ∧ (i ≤ k → ∃ l, deps[j]? = some l ∧ k ∈ l)) j e) →
    ∃ mid more, inlineLoop deps nuvars k i cur inl = .ok (mid, inl ++ more) ∧ (inl ++ more).Pairwise (· < ·) ∧
      (∀ x ∈ more, i ≤ x ∧ x < nuvars ∧ ∃ d, d < nuvars ∧ dependees x 0 deps = [d]) ∧ mid.length + more.length = k ∧
      ∀ (p : Nat) (e' : Expr K), mid[p]? = some e' → ∃ j e, i ≤ j ∧ j < nuvars ∧ j ∉ inl ++ more ∧
        shiftU (inl ++ more) j = i - inl.length + p ∧ e' = remap (inl ++ more) e ∧
        ElemInv P T R S (fun k => k ∉ inl ++ more) j e := by
  induction k with
  | zero =>
    intro i cur inl _ _ hs _ _
    exact ⟨[], [], by simp [inlineLoop], by simpa using hs, by simp, rfl, by simp⟩
  | succ k ih =>
    intro i cur inl hik hlen hs hi hel
    have hil : i < cur.length := by omega
    obtain ⟨ei0, hei0⟩ : ∃ e, cur[i]? = some e := ⟨_, List.getElem?_eq_getElem hil⟩
    have hEi := hel i ei0 (Nat.le_refl _) (by omega) hei0
    rw [inlineLoop]
    cases hint : inlineInto deps nuvars cur i with
    | some t =>
      obtain ⟨d, ed, ei⟩ := t
      obtain ⟨h1, h2, h3, h4⟩ := inlineInto_some hint
      rw [hei0] at h4
      injection h4 with h4
      subst h4
      have hmem : d ∈ dependees i 0 deps := by rw [h1]; simp
      obtain ⟨m, l, h5, h6, h7⟩ := (mem_dependees deps 0).1 hmem
      rw [Nat.zero_add] at h7
      subst h7
      have hid := hdeps d l h5 h2 i h6
      have hEd := hel d ed (by omega) h2 h3
      have hsub := hEi.subs hEd hid
      simp only
      have hs' : (inl ++ [i]).Pairwise (· < ·) := by
        rw [List.pairwise_append]
        exact ⟨hs, by simp, fun a ha b hb => by rw [List.mem_singleton] at hb; rw [hb]; exact hi a ha⟩
      obtain ⟨mid, more, r1, r2, r3, r4, r5⟩ := ih (i + 1) (cur.set d (subsU i ei0 ed)) (inl ++ [i]) (by omega)
        (by simpa using hlen) hs' (fun x hx => by
          rcases List.mem_append.1 hx with hx | hx
          · have := hi x hx; omega
          · rw [List.mem_singleton] at hx; omega) (fun j e hj1 hj2 hje => by
          by_cases hjd : j = d
          · subst hjd
            rw [List.getElem?_set_self (by omega)] at hje
            injection hje with hje
            subst hje
            refine hsub.mono fun x _ _ hx => ?_
            rcases hx with ⟨hx, hlt⟩ | ⟨hx, hne⟩
            · exact ⟨by simp [hx.1]; omega, fun hc => absurd hlt (by omega)⟩
            · exact ⟨by simp [hx.1, hne], fun hc => hx.2 (by omega)⟩
          · rw [List.getElem?_set_ne (Ne.symm hjd)] at hje
            refine (hel j e (by omega) hj2 hje).mono fun x _ _ hx => ⟨?_, fun hc => hx.2 (by omega)⟩
            have hne : x ≠ i := by
              rintro rfl
              obtain ⟨l', h8, h9⟩ := hx.2 (Nat.le_refl _)
              have : j ∈ dependees x 0 deps := (mem_dependees deps 0).2 ⟨j, l', h8, h9, by omega⟩
              rw [h1, List.mem_singleton] at this
              exact hjd this
            simp [hx.1, hne])
      refine ⟨mid, i :: more, ?_, ?_, ?_, ?_, ?_⟩
      · rw [r1]; simp
      · simpa using r2
      · intro x hx
        rcases List.mem_cons.1 hx with rfl | hx
        · exact ⟨Nat.le_refl _, by omega, d, h2, h1⟩
        · obtain ⟨h8, h9⟩ := r3 x hx
          exact ⟨by omega, h9⟩
      · rw [List.length_cons]; omega
      · intro p e' hp
        obtain ⟨j, e, q1, q2, q3, q4, q5, q6⟩ := r5 p e' hp
        have heq : inl ++ [i] ++ more = inl ++ i :: more := by simp
        rw [heq] at q3 q4 q5 q6
        refine ⟨j, e, by omega, q2, q3, ?_, q5, q6⟩
        rw [q4, List.length_append, List.length_singleton]
        have := (shiftU_all hs hi).2
        omega
    | none =>
      simp only [hei0]
      rw [if_neg (by rw [TreeOk.compositeOk hP hEi.tree]; simp)]
      obtain ⟨mid, more, r1, r2, r3, r4, r5⟩ := ih (i + 1) cur inl (by omega) hlen hs
        (fun x hx => by have := hi x hx; omega) (fun j e hj1 hj2 hje =>
          (hel j e (by omega) hj2 hje).mono fun x _ _ hx => ⟨hx.1, fun hc => hx.2 (by omega)⟩)
      have hmore : ∀ x ∈ more, i + 1 ≤ x := fun x hx => (r3 x hx).1
      refine ⟨remap inl ei0 :: mid, more, by rw [r1]; rfl, r2, fun x hx => ?_, by rw [List.length_cons]; omega, ?_⟩
      · obtain ⟨h8, h9⟩ := r3 x hx
        exact ⟨by omega, h9⟩
      · intro p e' hp
        have hle := (shiftU_all hs hi).2
        cases p with
        | zero =>
          simp only [List.getElem?_cons_zero, Option.some.injEq] at hp
          refine ⟨i, ei0, Nat.le_refl _, by omega, ?_, ?_, ?_, ?_⟩
          · intro hc
            rcases List.mem_append.1 hc with hc | hc
            · have := hi i hc; omega
            · have := hmore i hc; omega
          · rw [shiftU_append r2 hmore (by omega), (shiftU_all hs hi).1, Nat.add_zero]
          · rw [← hp]
            refine mapNodes_congr ei0 fun a ha => ?_
            cases a with
            | var s =>
              obtain ⟨x, rfl, hx, -⟩ := hEi.vars s ha
              rw [remapLeaf_var (by omega), remapLeaf_var (by omega), shiftU_append r2 hmore (by omega)]
            | _ => rfl
          · refine hEi.mono fun x _ hx hv => ?_
            intro hc
            rcases List.mem_append.1 hc with hc | hc
            · exact hv.1 hc
            · have := hmore x hc; omega
        | succ p =>
          obtain ⟨j, e, q1, q2, q3, q4, q5, q6⟩ := r5 p e' (by simpa using hp)
          exact ⟨j, e, by omega, q2, q3, by rw [q4]; omega, q5, q6⟩

/-! ### The result -/

/-- The middle part and the outputs of a decomposition after the inlining. -/
structure TreeDc (P : Fn K → Prop) (T : Prop) (R : Nat → Prop) (nvars : Nat) (mid outs : List (Expr K)) : Prop where
  fn : ∀ e ∈ mid, e.isFn = true
  tree : ∀ e ∈ mid, e.TreeOk P T
  leaf : ∀ (p : Nat) (e : Expr K), mid[p]? = some e → ∀ a ∈ e.leaves, ArgOk (nvars + p) a
  pars : ∀ e ∈ mid, ∀ k, .par k ∈ e.leaves → R k
  outArgs : ∀ a ∈ outs, ArgOk (nvars + mid.length) a
  outPars : ∀ k, .par k ∈ outs → R k

/-- The valuation `val` satisfies a decomposition after the inlining. -/
structure TreeSat (v : Env K) (nvars : Nat) (mid : List (Expr K)) (val : String → Option K) : Prop where
  ins : ∀ i, i < nvars → val (uname i) = some (v.var (uname i))
  elem : ∀ (p : Nat) (e : Expr K), mid[p]? = some e → treeVal v (argV v val) e = val (uname (nvars + p))

theorem parsIn_par {R : Nat → Prop} {e : Expr K} (h : ParsIn R e) : ∀ k, .par k ∈ e.leaves → R k := by
  induction e using Expr.ind with
  | fn f as ih =>
    intro k hk
    rw [parsIn_fn] at h
    obtain ⟨x, hx, hk⟩ := mem_leavesL.1 hk
    exact ih x hx (h x hx) k hk
  | par n =>
    intro k hk
    simp only [Expr.leaves, List.mem_singleton, Expr.par.injEq] at hk
    subst hk
    exact h
  | _ => intro k hk; simp [Expr.leaves] at hk

theorem inlineDc_ok (hP : LlvmSound P) {nvars nouts : Nat} {dc : List (Expr K)} (h : DcOk P nvars nouts dc)
    (hl : dc.length ≤ 2 ^ 32) (hcode : ∀ f args, .fn f args ∈ dcMid nvars nouts dc → codeOf f args = f ∧ (f = .time → T))
    (hpars : ∀ e ∈ dc, ParsIn R e) :
    ∃ mid outs, inlineDc nvars nouts dc = .ok (dc.take nvars ++ (mid ++ outs)) ∧ outs.length = nouts ∧
      nvars + mid.length ≤ dc.length - nouts ∧ TreeDc P T R nvars mid outs ∧
      ∀ v val, Sat v nvars (dc.take (dc.length - nouts)) val → ∃ val', TreeSat v nvars mid val' ∧
        outs.map (argV v val') = (dcOuts nouts dc).map (argV v val) := by
  have hlen := h.len
  set nu := dc.length - nouts with hnu
  have hget : ∀ (j : Nat) (e : Expr K), dc[j]? = some e → j < nu → nvars ≤ j →
      ∃ f args, e = .fn f args ∧ P f ∧ ∀ a ∈ args, ArgOk j a := by
    intro j e he hj hn
    exact h.wf.elem j e (by rw [List.getElem?_take_of_lt hj]; exact he) hn
  have hout : ∀ (j : Nat) (e : Expr K), dc[j]? = some e → nu ≤ j → ArgOk nu e := by
    intro j e he hj
    refine h.outs e ?_
    rw [dcOuts, List.mem_iff_getElem?]
    exact ⟨j - nu, by rw [List.getElem?_drop, show dc.length - nouts + (j - nu) = j by omega]; exact he⟩
  have hvar : ∀ (j : Nat) (e : Expr K), dc[j]? = some e → nvars ≤ j → ∀ s, .var s ∈ e.leaves →
      ∃ k, s = uname k ∧ k < nu ∧ (j < nu → k < j) := by
    intro j e he hn s hs
    rcases Nat.lt_or_ge j nu with hj | hj
    · obtain ⟨f, args, rfl, -, ha⟩ := hget j e he hj hn
      rw [Expr.leaves, leavesL_flat fun a h' => argOk_leaf (ha a h')] at hs
      obtain ⟨k, hk, rfl⟩ := (ha _ hs).var_of
      exact ⟨k, rfl, by omega, fun _ => hk⟩
    · have ho := hout j e he hj
      rw [leaves_leaf (argOk_leaf ho), List.mem_singleton] at hs
      subst hs
      obtain ⟨k, hk, rfl⟩ := ho.var_of
      exact ⟨k, rfl, hk, fun hc => absurd hc (by omega)⟩
  obtain ⟨deps, hd1, hd2, hd3⟩ := depLists_ok nvars dc 0 (fun k e he hn s hs => by
    obtain ⟨j, rfl, hj, -⟩ := hvar k e he (by omega) s hs
    exact ⟨j, by omega, rfl⟩)
  have hdeps : ∀ (j : Nat) (l : List Nat), deps[j]? = some l → j < nu → ∀ k ∈ l, k < j := by
    intro j l hj hjn k hk
    obtain ⟨e, he⟩ : ∃ e, dc[j]? = some e := ⟨_, List.getElem?_eq_getElem (by omega)⟩
    obtain ⟨h1, h2⟩ := (hd3 j e l he hj k).1 hk
    obtain ⟨k', h3, -, h4⟩ := hvar j e he (by omega) _ h2
    rw [uname_inj h3]
    exact h4 hjn
  obtain ⟨mid, more, r1, r2, r3, r4, r5⟩ := inlineLoop_ok (P := P) (T := T) (R := R)
    (S := fun v val => Sat v nvars (dc.take nu) val) hP (nuvars := nu) (by omega) hdeps (nu - nvars) nvars dc []
    (by omega) (by omega) (by simp) (by simp) (by
      intro j e hj1 hj2 he
      obtain ⟨f, args, rfl, hf, ha⟩ := hget j e he hj2 hj1
      have hmid : .fn f args ∈ dcMid nvars nouts dc := by
        rw [dcMid, List.mem_iff_getElem?]
        refine ⟨j - nvars, ?_⟩
        rw [List.getElem?_take_of_lt (by omega), List.getElem?_drop, show nvars + (j - nvars) = j by omega]
        exact he
      have hc := hcode f args hmid
      have hlf : Expr.leaves (.fn f args) = args := by
        rw [Expr.leaves, leavesL_flat fun a h' => argOk_leaf (ha a h')]
      refine ⟨rfl, ?_, ?_, ?_, ?_⟩
      · rw [treeOk_fn]
        exact ⟨⟨hf, hc.1, hc.2⟩, fun a h' => treeOk_leaf (argOk_leaf (ha a h'))⟩
      · exact parsIn_par (hpars _ (List.mem_of_getElem? he))
      · intro s hs
        obtain ⟨k, rfl, -, hk⟩ := hvar j _ he hj1 s hs
        refine ⟨k, rfl, hk hj2, by simp, fun _ => ?_⟩
        refine ⟨_, List.getElem?_eq_getElem (by rw [hd2]; omega), ?_⟩
        exact (hd3 j _ _ he (List.getElem?_eq_getElem (by rw [hd2]; omega)) k).2 ⟨by omega, hs⟩
      · intro v val hS
        rw [hS.elem j _ (by rw [List.getElem?_take_of_lt hj2]; exact he) hj1, elemV, treeVal_fn]
        congr 1
        exact List.map_congr_left fun a h' => treeVal_leaf _ _ (argOk_leaf (ha a h')))
  rw [List.nil_append] at r1 r2 r5
  have hml : nvars + mid.length ≤ nu := by omega
  have hmge : ∀ x ∈ more, nvars ≤ x := fun x hx => (r3 x hx).1
  have hmore_lt : ∀ x ∈ more, x < nu := fun x hx => (r3 x hx).2.1
  have hshift_nu : shiftU more nu = nvars + mid.length := by
    obtain ⟨h1, h2⟩ := shiftU_all r2 hmore_lt
    rw [h1]
    omega
  have hout_more : ∀ k, .var (uname k) ∈ dcOuts nouts dc → k ∉ more := by
    intro k hk hc
    obtain ⟨-, -, d, hd, hdep⟩ := r3 k hc
    rw [dcOuts, List.mem_iff_getElem?] at hk
    obtain ⟨q, hq⟩ := hk
    rw [List.getElem?_drop] at hq
    have hql := (List.getElem?_eq_some_iff.1 hq).1
    have : dc.length - nouts + q ∈ dependees k 0 deps := by
      refine (mem_dependees deps 0).2 ⟨dc.length - nouts + q, _, List.getElem?_eq_getElem (by rw [hd2]; omega), ?_, by omega⟩
      exact (hd3 _ _ _ hq (List.getElem?_eq_getElem (by rw [hd2]; omega)) k).2 ⟨by omega, by simp [Expr.leaves]⟩
    rw [hdep, List.mem_singleton] at this
    omega
  refine ⟨mid, (dcOuts nouts dc).map (remap more), ?_, ?_, hml, ?_, ?_⟩
  · rw [inlineDc, if_neg (by omega), hd1, Res.bind_ok, ← hnu, r1]
    rfl
  · rw [List.length_map, dcOuts, List.length_drop]; omega
  · have hremap : ∀ (j : Nat) (e : Expr K) (a : Expr K), ElemInv P T R (fun v val => Sat v nvars (dc.take nu) val)
        (fun k => k ∉ more) j e → j < nu → a ∈ (remap more e).leaves →
        (∃ k, a = .var (uname (shiftU more k)) ∧ k < j ∧ k ∉ more) ∨ (a ∈ e.leaves ∧ ∀ s, a ≠ .var s) := by
      intro j e a hE hj ha
      obtain ⟨b, hb, hab⟩ := (mem_leaves_mapNodes e).1 ha
      cases b with
      | var s =>
        obtain ⟨k, rfl, h1, h2⟩ := hE.vars s hb
        rw [remapLeaf_var (by omega)] at hab
        simp only [Expr.leaves, List.mem_singleton] at hab
        exact .inl ⟨k, hab, h1, h2⟩
      | fn f as => exact absurd (isFn_of_mem_leaves hb) (by simp [Expr.isFn])
      | num n =>
        simp only [remapLeaf, Expr.leaves, List.mem_singleton] at hab
        exact .inr ⟨hab ▸ hb, by simp [hab]⟩
      | par n =>
        simp only [remapLeaf, Expr.leaves, List.mem_singleton] at hab
        exact .inr ⟨hab ▸ hb, by simp [hab]⟩
    have hmem : ∀ e' ∈ mid, ∃ j e, j < nu ∧ e' = remap more e ∧
        ElemInv P T R (fun v val => Sat v nvars (dc.take nu) val) (fun k => k ∉ more) j e := by
      intro e' he'
      obtain ⟨p, hp⟩ := List.mem_iff_getElem?.1 he'
      obtain ⟨j, e, q1, q2, q3, q4, q5, q6⟩ := r5 p e' hp
      exact ⟨j, e, q2, q5, q6⟩
    refine ⟨?_, ?_, ?_, ?_, ?_, ?_⟩
    · intro e' he'
      obtain ⟨j, e, hj, rfl, hE⟩ := hmem e' he'
      have := hE.fn
      cases e with
      | fn f as => rw [remap, mapNodes_fn]; rfl
      | _ => simp [Expr.isFn] at this
    · intro e' he'
      obtain ⟨j, e, hj, rfl, hE⟩ := hmem e' he'
      refine TreeOk.mapNodes (remapLeaf_keepsNum more) e hE.tree fun a ha => ?_
      cases a with
      | var s =>
        obtain ⟨k, rfl, h1, h2⟩ := hE.vars s ha
        rw [remapLeaf_var (by omega)]
        exact treeOk_leaf rfl
      | fn f as => exact absurd (isFn_of_mem_leaves ha) (by simp [Expr.isFn])
      | num n => exact treeOk_leaf rfl
      | par n => exact treeOk_leaf rfl
    · intro p e' hp a ha
      obtain ⟨j, e, q1, q2, q3, q4, q5, q6⟩ := r5 p e' hp
      subst q5
      rcases hremap j e a q6 q2 ha with ⟨k, rfl, h1, h2⟩ | ⟨h1, h2⟩
      · refine ⟨shiftU more k, ?_, rfl⟩
        have := shiftU_lt r2 h2 h1
        rw [q4, List.length_nil] at this
        omega
      · cases a with
        | var s => exact absurd rfl (h2 s)
        | fn f as => exact absurd (isFn_of_mem_leaves h1) (by simp [Expr.isFn])
        | num n => trivial
        | par n => trivial
    · intro e' he' k hk
      obtain ⟨j, e, hj, rfl, hE⟩ := hmem e' he'
      rcases hremap j e _ hE hj hk with ⟨k, h1, -⟩ | ⟨h1, h2⟩
      · cases h1
      · exact hE.pars k h1
    · intro a ha
      obtain ⟨b, hb, rfl⟩ := List.mem_map.1 ha
      have hbo := h.outs b hb
      cases b with
      | var s =>
        obtain ⟨k, hk, rfl⟩ := hbo.var_of
        rw [remap, mapNodes_leaf rfl, remapLeaf_var (by omega)]
        refine ⟨shiftU more k, ?_, rfl⟩
        have := shiftU_lt r2 (hout_more k hb) (show k < nu by omega)
        omega
      | fn f as => exact hbo.elim
      | num n => trivial
      | par n => trivial
    · intro k hk
      obtain ⟨b, hb, hbk⟩ := List.mem_map.1 hk
      have hbo := h.outs b hb
      cases b with
      | var s =>
        obtain ⟨k, hk, rfl⟩ := hbo.var_of
        rw [remap, mapNodes_leaf rfl, remapLeaf_var (by omega)] at hbk
        cases hbk
      | fn f as => exact hbo.elim
      | num n => cases hbk
      | par n =>
        injection hbk with hbk
        subst hbk
        exact parsIn_par (hpars _ (List.mem_of_mem_drop hb)) _ (by simp [Expr.leaves])
  · intro v val hS
    classical
    let val' : String → Option K := fun s =>
      if h : ∃ j, j ∉ more ∧ s = uname (shiftU more j) then val (uname h.choose) else none
    have hval' : ∀ j, j ∉ more → val' (uname (shiftU more j)) = val (uname j) := by
      intro j hj
      have hex : ∃ j', j' ∉ more ∧ uname (shiftU more j) = uname (shiftU more j') := ⟨j, hj, rfl⟩
      simp only [val', dif_pos hex]
      have h2 := hex.choose_spec
      rw [← shiftU_inj r2 hj h2.1 (uname_inj h2.2)]
    have hleafV : ∀ (a : Expr K) (k : Nat), ArgOk k a → k ≤ nu → (∀ k, a = .var (uname k) → k ∉ more) →
        argV v val' (remapLeaf more a) = argV v val a := by
      intro a k ha hk hm
      cases a with
      | var s =>
        obtain ⟨x, hx, rfl⟩ := ha.var_of
        rw [remapLeaf_var (by omega)]
        exact hval' x (hm x rfl)
      | _ => rfl
    refine ⟨val', ⟨?_, ?_⟩, ?_⟩
    · intro i hi
      have h1 : i ∉ more := fun hc => by have := hmge i hc; omega
      have h2 := hval' i h1
      rw [shiftU_low r2 hmge (by omega)] at h2
      rw [h2]
      exact hS.ins i hi
    · intro p e' hp
      obtain ⟨j, e, q1, q2, q3, q4, q5, q6⟩ := r5 p e' hp
      rw [List.length_nil, Nat.sub_zero] at q4
      rw [← q4, hval' j q3, ← q6.val v val hS, q5]
      refine treeVal_mapNodes e fun a ha => ?_
      have hfn := isFn_of_mem_leaves ha
      cases a with
      | var s =>
        obtain ⟨k, rfl, h1, h2⟩ := q6.vars s ha
        rw [remapLeaf_var (by omega), treeVal_leaf _ _ rfl]
        exact hval' k h2
      | fn f as => simp [Expr.isFn] at hfn
      | _ => rfl
    · rw [List.map_map]
      refine List.map_congr_left fun b hb => ?_
      have hbo := h.outs b hb
      simp only [Function.comp]
      rw [remap, mapNodes_leaf (argOk_leaf hbo)]
      refine hleafV b _ hbo (Nat.le_refl _) fun k hk => ?_
      rw [hk] at hb
      exact hout_more k hb

end

end Heyoka.Sym

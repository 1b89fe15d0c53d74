import Verif.Expr.Diff
import Verif.Expr.TraverseLemmas

/-!
# The algorithms that are instances of the traversal machine
-/

set_option linter.unusedSectionVars false

namespace Heyoka.Sym

variable {K : Type}

/-- `ex_traverse_transform_nodes()` (`src/detail/ex_traversal.cpp` 35-180) with total transformation
functions for the leaves and for the functions. -/
def transformNodes (leaf branch : Expr K → Expr K) : Trav K (Expr K) (List (Expr K)) where
  pre := fun _ => none
  leaf := leaf
  comb := id
  fin := fun f _ new => .ok (branch (.fn f new))
  cacheLast := true

mutual
/-- The transformation of the leaves and of the functions by plain recursion. -/
def Expr.mapNodes (leaf branch : Expr K → Expr K) : Expr K → Expr K
  | .num n => leaf (.num n)
  | .var s => leaf (.var s)
  | .par i => leaf (.par i)
  | .fn f args => branch (.fn f (Expr.mapNodesL leaf branch args))
/-- The transformation of a list of expressions. -/
def Expr.mapNodesL (leaf branch : Expr K → Expr K) : List (Expr K) → List (Expr K)
  | [] => []
  | e :: es => Expr.mapNodes leaf branch e :: Expr.mapNodesL leaf branch es
end

theorem Expr.mapNodesL_eq_map (leaf branch : Expr K → Expr K) (es : List (Expr K)) :
    Expr.mapNodesL leaf branch es = es.map (Expr.mapNodes leaf branch) := by
  induction es with
  | nil => simp [Expr.mapNodesL]
  | cons e es ih => simp [Expr.mapNodesL, ih]

theorem Trav.naiveL_congr {R S : Type} {T : Trav K R S} {g : Expr K → R} {es : List (Expr K)}
    (h : ∀ e ∈ es, T.naive e = .ok (g e)) : T.naiveL es = .ok (es.map g) := by
  induction es with
  | nil => simp [Trav.naiveL]
  | cons e es ih =>
    rw [Trav.naiveL, ih fun a ha => h a (List.mem_cons_of_mem _ ha), h e List.mem_cons_self]
    simp

theorem transformNodes_naive (leaf branch : Expr K → Expr K) (e : Expr K) :
    (transformNodes leaf branch).naive e = .ok (e.mapNodes leaf branch) := by
  induction e using Expr.ind with
  | num n => simp [Trav.naive, transformNodes, Expr.mapNodes]
  | var n => simp [Trav.naive, transformNodes, Expr.mapNodes]
  | par n => simp [Trav.naive, transformNodes, Expr.mapNodes]
  | fn f args ih =>
    have := Trav.naiveL_congr ih
    rw [Trav.naive, this, Expr.mapNodes, Expr.mapNodesL_eq_map]
    simp [transformNodes]

/-- The leaf transformation of `subs()` with a map from the names of the variables
(`src/expression_basic.cpp` 733-746). -/
def subsLeaf (σ : String → Option (Expr K)) : Expr K → Expr K
  | .var s => (σ s).getD (.var s)
  | e => e

/-- `subs()` with a map from the names of the variables (`src/expression_basic.cpp` 730-774). -/
def subsTrav (σ : String → Option (Expr K)) : Trav K (Expr K) (List (Expr K)) :=
  transformNodes (subsLeaf σ) id

/-- The leaf transformation of `rename_variables()` (`src/expression_basic.cpp` 340-353). -/
def renameLeaf (σ : String → Option String) : Expr K → Expr K
  | .var s => match σ s with
    | some t => .var t
    | none => .var s
  | e => e

/-- `rename_variables()` (`src/expression_basic.cpp` 336-383). -/
def renameTrav (σ : String → Option String) : Trav K (Expr K) (List (Expr K)) :=
  transformNodes (renameLeaf σ) id

/-- `subs()` with a map from expressions (`src/expression_basic.cpp` 779-967); `find` is the lookup
in the map. -/
def subsMapTrav (find : Expr K → Option (Expr K)) : Trav K (Expr K) (List (Expr K)) where
  pre := find
  leaf := id
  comb := id
  fin := fun f _ new => .ok (.fn f new)
  cacheLast := true

/-- `hash()` (`src/expression_basic.cpp` 391-536): `comb` is `boost::hash_combine()`, `leafHash` the
hash of the leaves, `nameHash` combines a hash with the name of a function. -/
def hashTrav {H : Type} (seed : H) (comb : H → H → H) (leafHash : Expr K → H)
    (nameHash : H → Fn K → H) : Trav K H H where
  pre := fun _ => none
  leaf := leafHash
  comb := fun hs => hs.foldl comb seed
  fin := fun f _ s => .ok (nameHash s f)
  cacheLast := false

section
variable [Field K] [LinearOrder K] [FloorRing K] [Interp K]

/-- The leaf transformation of `diff()` (`src/expression_diff.cpp` 74-107). -/
def diffLeaf (x : DVar) : Expr K → Expr K
  | .num n => .num ⟨n.ty, .fin 0⟩
  | .par i => match x with
    | .par j => if i = j then .dbl 1 else .dbl 0
    | .var _ => .dbl 0
  | .var s => match x with
    | .par _ => .dbl 0
    | .var t => if s = t then .dbl 1 else .dbl 0
  | e => e

/-- `diff_impl()` (`src/expression_diff.cpp` 68-256). -/
def diffTrav (x : DVar) : Trav K (Expr K) (List (Expr K)) where
  pre := fun _ => none
  leaf := diffLeaf x
  comb := id
  fin := fun f args ds => (gradient f args).bind fun gs =>
    if gs.length ≠ args.length then .throw else .ok (sumE (List.zipWith mulE gs ds))
  cacheLast := true

theorem diffTrav_naive (x : DVar) (e : Expr K) : (diffTrav x).naive e = e.diff x := by
  induction e using Expr.ind with
  | num n => simp [Trav.naive, diffTrav, Expr.diff, diffLeaf]
  | var n => cases x <;> simp [Trav.naive, diffTrav, Expr.diff, diffLeaf]
  | par n => cases x <;> simp [Trav.naive, diffTrav, Expr.diff, diffLeaf]
  | fn f args ih =>
    have h : (diffTrav x).naiveL args = Expr.diffL x args := by
      induction args with
      | nil => simp [Trav.naiveL, Expr.diffL]
      | cons a as iha =>
        rw [Trav.naiveL, Expr.diffL, iha fun b hb => ih b (List.mem_cons_of_mem _ hb),
          ih a List.mem_cons_self]
    rw [Trav.naive, h, Expr.diff]
    rfl

end

end Heyoka.Sym

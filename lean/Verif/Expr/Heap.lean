import Verif.Expr.TraverseLemmas2

/-!
# Heaps of expressions

How the graphs of expressions come about: function objects are created one after the other and are
immutable (`func` holds a `shared_ptr` to the implementation, `include/heyoka/func.hpp`), so that
the arguments of a function are leaves or function objects created earlier. Two functions can be
constructed from the same `shared_ptr` to an argument list (`func_args`,
`include/heyoka/func_args.hpp` 23-50; `func_base`, `include/heyoka/func.hpp` 60-95).
-/

set_option linter.unusedSectionVars false

namespace Heyoka.Sym

variable {K : Type}

/-- The value of an expression: a leaf or the address of a function object. -/
inductive Ref (K : Type) where
  | num (n : Num K)
  | var (name : String)
  | par (idx : Nat)
  | obj (addr : Nat)

/-- A function object: the address of the argument list if the latter is shared, the function symbol
and the arguments. -/
structure Obj (K : Type) where
  sid : Option Nat
  f : Fn K
  args : List (Ref K)

/-- The function objects, in order of creation; the address is the position. -/
abbrev Heap (K : Type) := List (Obj K)

/-- A reference is valid below the address `i`. -/
def Ref.Below (i : Nat) : Ref K → Prop
  | .obj j => j < i
  | _ => True

/-- Arguments are created before the functions using them, and what is found at the address of a
shared argument list is unique. -/
structure Heap.Valid (h : Heap K) : Prop where
  acyclic : ∀ (i : Nat) (o : Obj K), h[i]? = some o → ∀ r ∈ o.args, r.Below i
  shared : ∀ (i j : Nat) (o o' : Obj K) (k : Nat), h[i]? = some o → h[j]? = some o' →
    o.sid = some k → o'.sid = some k → o.args = o'.args

/-- The unfolding of a reference, to a given depth. -/
def Heap.node (h : Heap K) : Nat → Ref K → Node K
  | _, .num n => .num n
  | _, .var s => .var s
  | _, .par i => .par i
  | 0, .obj _ => .var "dangling"
  | d + 1, .obj i =>
    match h[i]? with
    | none => .var "dangling"
    | some o => .fn i o.sid o.f (o.args.map (h.node d))

/-- The unfolding of a reference. -/
def Heap.unfold (h : Heap K) (r : Ref K) : Node K := h.node (h.length + 1) r

/-- The unfolding does not depend on the depth if the latter is large enough. -/
theorem Heap.node_eq {h : Heap K} (hv : h.Valid) : ∀ (i d d' : Nat) (r : Ref K), r.Below i →
    i ≤ d → i ≤ d' → h.node d r = h.node d' r := by
  intro i
  induction i with
  | zero =>
    intro d d' r hr _ _
    cases r with
    | obj j => simp [Ref.Below] at hr
    | _ => cases d <;> cases d' <;> rfl
  | succ i ih =>
    intro d d' r hr hd hd'
    cases r with
    | obj j =>
      obtain ⟨d, rfl⟩ : ∃ e, d = e + 1 := ⟨d - 1, by omega⟩
      obtain ⟨d', rfl⟩ : ∃ e, d' = e + 1 := ⟨d' - 1, by omega⟩
      simp only [Heap.node]
      cases ho : h[j]? with
      | none => rfl
      | some o =>
        have hj : j < i + 1 := hr
        simp only [Node.fn.injEq, true_and]
        refine List.map_congr_left fun r' hr' => ih d d' r' ?_ (by omega) (by omega)
        have := hv.acyclic j o ho r' hr'
        cases r' with
        | obj k => simp only [Ref.Below] at this ⊢; omega
        | _ => trivial
    | _ => cases d <;> cases d' <;> rfl

/-- Unfolding a function object. -/
theorem Heap.unfold_obj {h : Heap K} (hv : h.Valid) {i : Nat} {o : Obj K} (ho : h[i]? = some o) :
    h.unfold (.obj i) = .fn i o.sid o.f (o.args.map h.unfold) := by
  have hi : i < h.length := by
    by_contra hc
    rw [List.getElem?_eq_none (by omega)] at ho
    cases ho
  simp only [Heap.unfold, Heap.node, ho, Node.fn.injEq, true_and]
  refine List.map_congr_left fun r hr => Heap.node_eq hv i _ _ r (hv.acyclic i o ho r hr) (by omega)
    (by omega)

/-- The nodes of a heap. -/
def Heap.Nodes (h : Heap K) (n : Node K) : Prop := ∃ r : Ref K, r.Below h.length ∧ n = h.unfold r

/-- The identities of the nodes of a heap are identities. -/
theorem Heap.consistent {h : Heap K} (hv : h.Valid) : Consistent h.Nodes := by
  have key : ∀ {id sid f args}, h.Nodes (.fn id sid f args) →
      ∃ o, h[id]? = some o ∧ Node.fn id sid f args = h.unfold (.obj id) ∧ sid = o.sid ∧ f = o.f ∧
        args = o.args.map h.unfold := by
    rintro id sid f args ⟨r, hr, hn⟩
    cases r with
    | obj i =>
      have hi : i < h.length := hr
      have ho : h[i]? = some h[i] := by simp
      have := Heap.unfold_obj hv ho
      rw [this] at hn
      obtain ⟨rfl, h2, h3, h4⟩ := Node.fn.inj hn
      exact ⟨_, ho, hn.trans this.symm, h2, h3, h4⟩
    | num n => simp [Heap.unfold, Heap.node] at hn
    | var n => simp [Heap.unfold, Heap.node] at hn
    | par n => simp [Heap.unfold, Heap.node] at hn
  refine ⟨?_, ?_, ?_⟩
  · intro id sid f args hn a ha
    obtain ⟨o, ho, -, -, -, rfl⟩ := key hn
    obtain ⟨r, hr, rfl⟩ := List.mem_map.1 ha
    refine ⟨r, ?_, rfl⟩
    have hi : id < h.length := by
      by_contra hc
      rw [List.getElem?_eq_none (by omega)] at ho
      cases ho
    have := hv.acyclic id o ho r hr
    cases r with
    | obj k => simp only [Ref.Below] at this ⊢; omega
    | _ => trivial
  · intro id sid f args sid' f' args' h1 h2
    obtain ⟨-, -, e1, -⟩ := key h1
    obtain ⟨-, -, e2, -⟩ := key h2
    rw [e1, e2]
  · intro k id f args id' f' args' h1 h2
    obtain ⟨o, ho, -, hs, -, rfl⟩ := key h1
    obtain ⟨o', ho', -, hs', -, rfl⟩ := key h2
    rw [hv.shared id id' o o' k ho ho' hs.symm hs'.symm]

end Heyoka.Sym

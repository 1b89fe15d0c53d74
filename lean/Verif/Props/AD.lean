import Verif.AD.Loop
import Verif.Props.Partials
import Verif.Compact.Real
import Verif.Props.Dtens
import Verif.Props.Decompose

/-!
# C15: tensors of derivatives by automatic differentiation

The results of `diff_tensors()` are the derivatives. The notions used: `Smooth x v e` (`Expr/DiffSpec.lean`) says that all
the functions occurring in `e` are differentiable at the point `v` with respect to `x`; `IsDeriv x e e'`
(`AD/Step.lean`) says that at all those points `e'` has the value of the partial derivative of `e` with respect to
`x`; `d.atDense (i :: ns)` is `operator[]` of the tensor (C16) for the component `i` and the orders `ns` of differentiation with
respect to the arguments.
-/

set_option linter.unusedSectionVars false

namespace Heyoka.AD

open Heyoka.Sym Heyoka.Dtens Filter Topology

variable [DFunc]

/-! ### The functions of the library -/

/-- The functions of the library, and the derivatives of unspecified functions (`dfun`). -/
def _root_.Heyoka.Sym.Fn.libD (H : ℝ → Prop) (f : Fn ℝ) : Prop := f.lib H ∨ ∃ id ix, f = .dfun id ix

/-- The functions of the library with a gradient, with the right number of arguments; the slopes of the rectifiers are
in `H`. -/
def LibFn (H : ℝ → Prop) (f : Fn ℝ) (k : Nat) : Prop := f.libD H ∧ hasGrad f k

/-- An expression consisting of the functions of the library. -/
abbrev LibExpr (H : ℝ → Prop) (e : Expr ℝ) : Prop := GoodS (LibFn H) (fun _ => True) (fun _ => True) e

theorem libFn_closed (H : ℝ → Prop) : GradClosed (LibFn H) := by
  constructor
  · exact fun n => ⟨.inl (.inl trivial), trivial⟩
  · exact fun b n => ⟨.inl (.inl trivial), trivial⟩
  · exact fun a => ⟨.inl (.inl trivial), rfl⟩
  · exact ⟨.inl (.inl trivial), rfl⟩
  · exact ⟨.inl (.inl trivial), rfl⟩
  · exact fun c => ⟨.inl (.inl trivial), rfl⟩
  · exact fun c => ⟨.inl (.inl trivial), rfl⟩
  · exact ⟨.inl (.inl trivial), rfl⟩
  · exact ⟨.inl (.inl trivial), rfl⟩
  · exact ⟨.inl (.inr (.inl rfl)), rfl⟩
  · rintro s ⟨(h | h | ⟨t, ht, h | h⟩) | ⟨id, ix, h⟩, -⟩
    · exact h.elim
    · cases h
    · cases h
      exact ⟨.inl (.inr (.inr ⟨s, ht, .inr rfl⟩)), rfl⟩
    · cases h
    · cases h
  · exact fun id ix n i _ => ⟨.inr ⟨_, _, rfl⟩, trivial⟩

theorem builtin_not_dfun [FmtName ℝ] {f : Fn ℝ} (hf : f.builtin ∨ f = .const "pi") :
    f.name.toList.take 4 ≠ ['d', 'f', 'u', 'n'] := by
  rcases hf with hf | rfl
  · cases f <;> simp only [Fn.builtin] at hf
    case sin c => cases c <;> (simp only [Fn.name]; decide +kernel)
    case cos c => cases c <;> (simp only [Fn.name]; decide +kernel)
    case rel op => cases op <;> (simp only [Fn.name, RelOp.name]; decide +kernel)
    all_goals (simp only [Fn.name]; decide +kernel)
  · simp only [Fn.name]; decide +kernel

theorem lib_not_dfun [FmtName ℝ] {H : ℝ → Prop} {f : Fn ℝ} (hf : f.lib H) (id : String) (ix : List (Nat × Nat)) :
    f.name ≠ dfunName id ix := by
  intro h
  have h1 := dfunName_start id ix
  rw [← h] at h1
  rcases lib_cases hf with hf | hf
  · exact builtin_not_dfun hf h1
  · rw [relu_start hf] at h1
    exact absurd h1 (by decide)

theorem lib_norm_sound' [FmtName ℝ] {H : ℝ → Prop} (hH : HexOk H) : NormSound (Fn.lib H) := by
  have hpi : (builtinTable (K := ℝ)).lookup "pi" = none := by
    simp [builtinTable, List.lookup]
  intro f g hf hg h
  rcases lib_cases hf with hf | hf <;> rcases lib_cases hg with hg | hg
  · rcases hf with hf | rfl <;> rcases hg with hg | rfl
    · have h1 := builtin_table f hf
      rw [h, builtin_table g hg] at h1
      exact (Option.some.inj h1).symm
    · have := builtin_table f hf
      rw [h] at this
      rw [show (Fn.const "pi" : Fn ℝ).name = "pi" from rfl, hpi] at this
      cases this
    · have := builtin_table g hg
      rw [← h] at this
      rw [show (Fn.const "pi" : Fn ℝ).name = "pi" from rfl, hpi] at this
      cases this
    · rfl
  · exact absurd (by rw [h]; exact relu_start hg) (builtin_start hf)
  · exact absurd (by rw [← h]; exact relu_start hf) (builtin_start hg)
  · rw [relu_inj hH hf hg h]

theorem lib_norm_sound [FmtName ℝ] {H : ℝ → Prop} (hH : HexOk H) : NormSound (Fn.libD H) := by
  rintro f g (hf | ⟨id, ix, rfl⟩) (hg | ⟨jd, jx, rfl⟩) h
  · exact lib_norm_sound' hH f g hf hg h
  · exact absurd h (lib_not_dfun hf _ _)
  · exact absurd h.symm (lib_not_dfun hg _ _)
  · obtain ⟨rfl, rfl⟩ := dfunName_inj h
    rfl

/-! ### Dense indices -/

theorem sparse_incr (ns : List Nat) : ∀ (i j : Nat) (hj : j < ns.length),
    sparse i (ns.set j (ns[j] + 1)) = addIdx (i + j) (sparse i ns) := by
  induction ns with
  | nil => intro i j hj; simp at hj
  | cons n t ih =>
    intro i j hj
    cases j with
    | zero =>
      simp only [List.getElem_cons_zero, List.set_cons_zero, Nat.add_zero]
      rw [sparse, if_pos (by omega), sparse]
      by_cases hn : n ≠ 0
      · rw [if_pos hn, addIdx, if_neg (by omega), if_pos rfl]
      · rw [if_neg hn]
        obtain rfl : n = 0 := by simpa using hn
        cases hs : sparse (i + 1) t with
        | nil => rfl
        | cons p l =>
          have := sparse_bound (i + 1) t p (by rw [hs]; exact List.mem_cons_self)
          obtain ⟨k, o⟩ := p
          simp only at this
          rw [addIdx, if_neg (by omega), if_neg (by omega)]
    | succ j =>
      simp only [List.getElem_cons_succ, List.set_cons_succ]
      have h := ih (i + 1) j (by simpa using hj)
      rw [show i + 1 + j = i + (j + 1) by omega] at h
      rw [sparse, sparse]
      by_cases hn : n ≠ 0
      · rw [if_pos hn, if_pos hn, addIdx, if_pos (by omega), h]
      · rw [if_neg hn, if_neg hn, h]

theorem sparse_mem {ns : List Nat} : ∀ {i : Nat} {r : Nat × Nat}, r ∈ sparse i ns →
    ∃ (k : Nat) (hk : k < ns.length), r = (i + k, ns[k]) ∧ ns[k] ≠ 0 := by
  induction ns with
  | nil => intro i r h; simp [sparse] at h
  | cons n t ih =>
    intro i r h
    have key : r ∈ sparse (i + 1) t → ∃ (k : Nat) (hk : k < (n :: t).length), r = (i + k, (n :: t)[k]) ∧ (n :: t)[k] ≠ 0 := by
      intro h
      obtain ⟨k, hk, h1, h2⟩ := ih h
      exact ⟨k + 1, by simpa using hk, by rw [h1]; simp; omega, by simpa using h2⟩
    rw [sparse] at h
    by_cases hn : n ≠ 0
    · rw [if_pos hn] at h
      rcases List.mem_cons.1 h with rfl | h
      · exact ⟨0, by simp, by simp, by simpa using hn⟩
      · exact key h
    · rw [if_neg hn] at h
      exact key h

theorem sum_incr (ns : List Nat) : ∀ (j : Nat) (hj : j < ns.length), (ns.set j (ns[j] + 1)).sum = ns.sum + 1 := by
  induction ns with
  | nil => intro j hj; simp at hj
  | cons n t ih =>
    intro j hj
    cases j with
    | zero => simp; omega
    | succ j =>
      have := ih j (by simpa using hj)
      simp only [List.getElem_cons_succ, List.set_cons_succ, List.sum_cons] at this ⊢
      omega

theorem atDense_mem {α : Type} {d : Dt α} {nouts order : Nat} (hc : Complete d nouts order) {p : SIdx × α} (hp : p ∈ d.map)
    {i : Nat} {ns : List Nat} (hns : ns.length = d.nargs) (hk : p.1 = (i, sparse 0 ns)) : d.atDense (i :: ns) = .ok p.2 := by
  have h1 : d.findDense (i :: ns) = mapFind d.map (i, sparse 0 ns) := by
    rw [Dt.findDense, if_neg (by simpa using hns)]
  obtain ⟨k, hkl, hkk, hf⟩ := mapFind_mem hc.map ⟨p, hp, hk⟩
  have hl := hc.lookup hp
  have hl' := hc.lookup (List.getElem_mem hkl)
  rw [hkk, ← hk, hl] at hl'
  rw [Dt.atDense, h1, hf, Dt.deref, Res.bind_ok, List.getElem?_eq_getElem hkl]
  simp only [Res.ok.injEq]
  exact (Option.some.inj hl').symm

/-! ### The results are the derivatives -/

section
variable [FmtName ℝ] {H : ℝ → Prop} {share : List (Expr ℝ) → List (Node ℝ)} {es : List (Expr ℝ)} {dargs : DArgs ℝ}
variable {fuel order : Nat} {d : Dt (Expr ℝ)} {args : List DVar}

/-- The differentiation arguments a call of `diff_tensors()` asks for: a list without duplicates. -/
def ArgsFor (es : List (Expr ℝ)) (dargs : DArgs ℝ) (args : List DVar) : Prop :=
  dargs.exprs es = .ok (args.map ofDVar) ∧ args.Nodup ∧ args ≠ []

theorem toDVars_eq {as : List (Expr ℝ)} : ∀ {args : List DVar}, toDVars as = some args ↔ as = args.map ofDVar := by
  induction as with
  | nil => intro args; cases args <;> simp [toDVars]
  | cons a as ih =>
    intro args
    rw [toDVars]
    cases args with
    | nil => cases toDVar a <;> cases toDVars as <;> simp
    | cons x xs =>
      have h1 : toDVar a = some x ↔ a = ofDVar x := by
        cases a <;> cases x <;> simp [toDVar, ofDVar]
      rw [List.map_cons, List.cons.injEq, ← h1, ← ih]
      cases toDVar a <;> cases toDVars as <;> simp

theorem diffTensors_ok (h : diffTensors fuel share es dargs order = some (.ok (d, args))) :
    es ≠ [] ∧ ArgsFor es dargs args ∧ d.nargs = args.length ∧ args.length < 2 ^ 32 ∧ es.length ≤ 2 ^ 32 ∧
      orderLoop fuel share args order 0 (es.zipIdx.map fun p => ((p.2, []), p.1)) = some (.ok d.map) := by
  unfold diffTensors at h
  by_cases he : es.isEmpty = true
  · rw [if_pos he] at h; cases h
  rw [if_neg he] at h
  cases hx : dargs.exprs es with
  | throw => rw [hx] at h; cases h
  | ub => rw [hx] at h; cases h
  | ok as =>
    rw [hx] at h
    simp only at h
    by_cases ha : as.isEmpty = true
    · rw [if_pos ha] at h; cases h
    rw [if_neg ha] at h
    cases hd : toDVars as with
    | none => rw [hd] at h; cases h
    | some args' =>
      rw [hd] at h
      simp only at h
      by_cases hn : args'.Nodup
      · rw [if_neg (by simpa using hn)] at h
        unfold tensorsImpl at h
        by_cases h1 : 2 ^ 32 ≤ args'.length
        · rw [if_pos h1] at h; cases h
        rw [if_neg h1] at h
        by_cases h2 : 2 ^ 32 < es.length
        · rw [if_pos h2] at h; cases h
        rw [if_neg h2] at h
        cases ho : orderLoop fuel share args' order 0 (es.zipIdx.map fun p => ((p.2, []), p.1)) with
        | none => rw [ho] at h; cases h
        | some r =>
          rw [ho] at h
          cases r with
          | throw => cases h
          | ub => cases h
          | ok m =>
            simp only [Option.map_some, Res.bind_ok, Option.some.injEq, Res.ok.injEq, Prod.mk.injEq] at h
            obtain ⟨rfl, rfl⟩ := h
            have has := toDVars_eq.1 hd
            refine ⟨by simpa using he, ⟨by rw [hx, has], hn, ?_⟩, rfl, by omega, by omega, ho⟩
            rintro rfl
            rw [has] at ha
            exact ha rfl
      · rw [if_pos (by simpa using hn)] at h; cases h

theorem diffTensors_tensor (hH : HexOk H) (hshare : ∀ es, Represents (share es) es) (hes : ∀ e ∈ es, LibExpr H e)
    (ho : order < 2 ^ 32) (h : diffTensors fuel share es dargs order = some (.ok (d, args))) :
    Tensor (LibFn H) es args order d.map := by
  obtain ⟨h1, h2, h3, h4, h5, h6⟩ := diffTensors_ok h
  have := orderLoop_spec (lib_norm_sound hH) (fun f k h => h.1) (libFn_closed H) hshare order (by omega)
    (tensor_init h1 h2.2.2 h4 hes) h6
  rwa [Nat.zero_add] at this

/-- C15: **the tensor** returned by `diff_tensors()` contains all the derivatives of all the components up to the given
order (and nothing else, `Complete`), for the requested arguments. Those of order zero are the components. -/
theorem diff_tensors_complete (hH : HexOk H) (hshare : ∀ es, Represents (share es) es) (hes : ∀ e ∈ es, LibExpr H e)
    (ho : order < 2 ^ 32) (h : diffTensors fuel share es dargs order = some (.ok (d, args))) :
    ArgsFor es dargs args ∧ d.nargs = args.length ∧ Complete d es.length order ∧
      ∀ (i : Nat) (e : Expr ℝ), es[i]? = some e → d.atDense (i :: List.replicate args.length 0) = .ok e := by
  obtain ⟨h1, h2, h3, h4, h5, h6⟩ := diffTensors_ok h
  have ht := diffTensors_tensor hH hshare hes ho h
  have hc : Complete d es.length order := by
    have := ht.complete
    rwa [← h3] at this
  refine ⟨h2, h3, hc, fun i e he => ?_⟩
  have h0 : ∀ n k, sparse k (List.replicate n 0) = [] := by
    intro n
    induction n with
    | zero => intro k; rfl
    | succ n ih => intro k; rw [List.replicate_succ, sparse, if_neg (by simp), ih]
  exact atDense_mem hc (ht.base i e he) (by rw [h3]; simp) (by rw [h0])

/-- C15: **higher orders**: the derivative with the orders `ns + 1` for the argument `j` is the derivative, with respect to this
argument, of the one with the orders `ns`; `j` is the first of the arguments of the derivative. -/
theorem diff_tensors_derivative (hH : HexOk H) (hshare : ∀ es, Represents (share es) es) (hes : ∀ e ∈ es, LibExpr H e)
    (ho : order < 2 ^ 32) (h : diffTensors fuel share es dargs order = some (.ok (d, args)))
    {i : Nat} (hi : i < es.length) {ns : List Nat} (hns : ns.length = args.length) (hsum : ns.sum + 1 ≤ order)
    {j : Nat} (hj : j < ns.length) (hfirst : ∀ k (hk : k < j), ns[k] = 0) :
    ∃ e e', d.atDense (i :: ns) = .ok e ∧ d.atDense (i :: ns.set j (ns[j] + 1)) = .ok e' ∧ IsDeriv (args[j]'(hns ▸ hj)) e e' := by
  obtain ⟨-, h3, hc, -⟩ := diff_tensors_complete hH hshare hes ho h
  have ht := diffTensors_tensor hH hshare hes ho h
  have hmem : ∀ ns' : List Nat, ns'.length = args.length → ns'.sum ≤ order → ∃ p ∈ d.map, p.1 = (i, sparse 0 ns') := by
    intro ns' hl hs
    refine (hc.keys _).2 ⟨hi, sparse_sane _ _, fun q hq => ?_, by rw [sparse_degree]; exact hs⟩
    have := (sparse_bound 0 ns' q hq).2.1
    rw [h3]; omega
  obtain ⟨q, hq, hqk⟩ := hmem (ns.set j (ns[j] + 1)) (by simpa using hns) (by rw [sum_incr]; exact hsum)
  have hinc := sparse_incr ns 0 j hj
  rw [Nat.zero_add] at hinc
  rw [hinc] at hqk
  obtain ⟨p, hp, j', x, hx, hpk, hmin, hder⟩ := ht.src q hq (by rw [hqk]; exact addIdx_ne_nil _ _)
  have hge : ∀ r ∈ sparse 0 ns, j ≤ r.1 := by
    intro r hr
    by_contra hlt
    obtain ⟨k, hk, rfl, hne⟩ := sparse_mem hr
    rw [Nat.zero_add] at hlt
    exact hne (hfirst k (by omega))
  rw [hqk, Prod.mk.injEq] at hpk
  have hsane : Sane p.1.2 := ((hc.keys p.1).1 ⟨p, hp, rfl⟩).2.1
  obtain ⟨rfl, heq⟩ := addIdx_inj (sparse_sane 0 ns) hsane hge hmin hpk.2
  refine ⟨p.2, q.2, atDense_mem hc hp (by rw [h3, hns]) (Prod.ext hpk.1.symm heq.symm),
    atDense_mem hc hq (by rw [h3]; simpa using hns) (by rw [hqk, hinc]), ?_⟩
  rw [List.getElem?_eq_some_iff] at hx
  obtain ⟨_, rfl⟩ := hx
  exact hder

/-- C15: **first order**: the derivative of the component `i` with respect to the argument `j`, in the forward mode (not more arguments
than components) and in the reverse mode (more arguments than components). -/
theorem diff_tensors_gradient (hH : HexOk H) (hshare : ∀ es, Represents (share es) es) (hes : ∀ e ∈ es, LibExpr H e)
    (ho : order < 2 ^ 32) (h1 : 1 ≤ order) (h : diffTensors fuel share es dargs order = some (.ok (d, args)))
    {i : Nat} (hi : i < es.length) {j : Nat} (hj : j < args.length) :
    ∃ e', d.atDense (i :: (List.replicate args.length 0).set j 1) = .ok e' ∧ IsDeriv args[j] es[i] e' := by
  obtain ⟨e, e', he, he', hd⟩ := diff_tensors_derivative hH hshare hes ho h hi (ns := List.replicate args.length 0)
    (by simp) (by simpa using h1) (j := j) (by simpa using hj) (by simp)
  obtain ⟨-, -, -, hbase⟩ := diff_tensors_complete hH hshare hes ho h
  rw [hbase i es[i] (List.getElem?_eq_getElem hi)] at he
  cases he
  rw [List.getElem_replicate] at he'
  exact ⟨e', he', hd⟩

/-- The arguments of a derivative with the orders `ns`, each repeated according to its order. -/
def repeated (args : List DVar) (ns : List Nat) : List DVar := (List.zipWith List.replicate ns args).flatten

theorem repeated_incr : ∀ (args : List DVar) (ns : List Nat) (j : Nat) (hj : j < ns.length) (hl : ns.length = args.length),
    (repeated args (ns.set j (ns[j] + 1))).Perm (args[j]'(hl ▸ hj) :: repeated args ns)
  | [], [], j, hj, _ => absurd hj (by simp)
  | a :: as, n :: ns, 0, _, _ => by simp [repeated, List.replicate_succ]
  | a :: as, n :: ns, j + 1, hj, hl => by
    have ih := repeated_incr as ns j (by simpa using hj) (by simpa using hl)
    simp only [repeated, List.set_cons_succ, List.zipWith_cons_cons, List.flatten_cons, List.getElem_cons_succ] at ih ⊢
    exact (ih.append_left _).trans List.perm_middle

/-- There is a first positive order, which can be decremented. -/
theorem exists_first : ∀ (ns : List Nat), ns.sum ≠ 0 → ∃ (ms : List Nat) (j : Nat) (hj : j < ms.length),
    ns = ms.set j (ms[j] + 1) ∧ ms.length = ns.length ∧ ns.sum = ms.sum + 1 ∧ ∀ k (hk : k < j), ms[k] = 0
  | [], h => absurd rfl h
  | 0 :: ns, h => by
    obtain ⟨ms, j, hj, h1, h2, h3, h4⟩ := exists_first ns (by simpa using h)
    refine ⟨0 :: ms, j + 1, by simpa using hj, by simpa using h1, by simp [h2], by simpa using h3, fun k hk => ?_⟩
    cases k with
    | zero => rfl
    | succ k => simpa using h4 k (by omega)
  | (n + 1) :: ns, _ => ⟨n :: ns, 0, by simp, by simp, by simp, by simp; omega, by simp⟩

theorem IsDeriv.pderiv {x : DVar} {e e' : Expr ℝ} (h : IsDeriv x e e') : PDeriv x e e' := pderiv_of h.2 h.1

/-- C15: **all orders**: the entry with the orders `ns` has the value of the partial derivative of the component, of the order `ns[j]`
with respect to the argument `j`, at every point which is regular for the component. The order in which
the derivatives are taken (the list `xs`) does not matter. -/
theorem diff_tensors_partials (hH : HexOk H) (hshare : ∀ es, Represents (share es) es) (hes : ∀ e ∈ es, LibExpr H e)
    (ho : order < 2 ^ 32) (h : diffTensors fuel share es dargs order = some (.ok (d, args)))
    {i : Nat} (hi : i < es.length) {ns : List Nat} (hns : ns.length = args.length) (hsum : ns.sum ≤ order) :
    ∃ e, d.atDense (i :: ns) = .ok e ∧ ∀ v, Reg v es[i] → Reg v e ∧
      ∀ xs : List DVar, xs.Perm (repeated args ns) → e.eval v = some (partials es[i].val xs v) := by
  obtain ⟨-, -, -, hbase⟩ := diff_tensors_complete hH hshare hes ho h
  have key : ∀ (m : Nat) (ns : List Nat), ns.sum = m → ns.length = args.length → ns.sum ≤ order →
      ∃ e L, d.atDense (i :: ns) = .ok e ∧ PChain es[i] L e ∧ L.Perm (repeated args ns) := by
    intro m
    induction m with
    | zero =>
      intro ns h0 hl _
      have hz : ns = List.replicate args.length 0 := by
        rw [List.eq_replicate_iff]
        exact ⟨hl, fun b hb => List.sum_eq_zero_iff.1 h0 b hb⟩
      refine ⟨es[i], [], ?_, .nil _, ?_⟩
      · rw [hz]; exact hbase i es[i] (List.getElem?_eq_getElem hi)
      · have : repeated args ns = [] := by
          rw [hz]
          clear * -
          induction args with
          | nil => rfl
          | cons a as ih =>
            simp only [repeated, List.length_cons, List.replicate_succ, List.zipWith_cons_cons, List.flatten_cons] at ih ⊢
            rw [ih]; rfl
        rw [this]
    | succ m ih =>
      intro ns h0 hl hle
      obtain ⟨ms, j, hj, rfl, h2, h3, h4⟩ := exists_first ns (by omega)
      have hml : ms.length = args.length := by rw [h2]; exact hl
      obtain ⟨e, e', he, he', hd⟩ := diff_tensors_derivative hH hshare hes ho h hi (ns := ms) hml (by omega) hj h4
      obtain ⟨e1, L, h5, h6, h7⟩ := ih ms (by omega) hml (by omega)
      rw [he] at h5
      cases h5
      refine ⟨e', L ++ [args[j]'(hml ▸ hj)], he', h6.snoc hd.pderiv, ?_⟩
      refine List.Perm.trans ?_ (repeated_incr args ms j hj hml).symm
      exact (List.perm_append_singleton _ _).trans (h7.cons _)
  obtain ⟨e, L, h1, h2, h3⟩ := key _ ns rfl hns hsum
  refine ⟨e, h1, fun v hv => ⟨h2.reg hv, fun xs hx => ?_⟩⟩
  rw [h2.val hv, partials_perm (hx.trans h3.symm) hv]

/-! ### The calls that succeed -/

/-- C15: **success**: a call with at least one component and at least one argument, all of them different variables or
parameters, returns a tensor, provided that the numbers of arguments, components and elements of the
decompositions (`Fits`: of the derivatives of every order but the last one) do not exceed the range of 32-bit integers. -/
theorem diff_tensors_total (hH : HexOk H) (hshare : ∀ es, Represents (share es) es) (hes : ∀ e ∈ es, LibExpr H e)
    (ho : order < 2 ^ 32) (hne : es ≠ []) (ha : ArgsFor es dargs args) (hal : args.length < 2 ^ 32) (hel : es.length ≤ 2 ^ 32)
    (hfit : ∀ k, k < order → ∀ fuel d', diffTensors fuel share es dargs k = some (.ok (d', args)) → Fits share k d'.map) :
    ∃ N d, ∀ fuel, N ≤ fuel → diffTensors fuel share es dargs order = some (.ok (d, args)) := by
  have hred : ∀ fuel k, diffTensors fuel share es dargs k =
      (orderLoop fuel share args k 0 (es.zipIdx.map fun p => ((p.2, []), p.1))).map fun r =>
        r.bind fun m => .ok (⟨m, args.length⟩, args) := by
    intro fuel k
    unfold diffTensors
    rw [if_neg (by simpa using hne), ha.1]
    simp only
    rw [if_neg (by simpa using ha.2.2), toDVars_eq.2 rfl]
    simp only
    rw [if_neg (by simpa using ha.2.1), tensorsImpl, if_neg (by omega), if_neg (by omega)]
  obtain ⟨N, m, hm⟩ := orderLoop_total (lib_norm_sound hH) (fun f k h => h.1) (libFn_closed H) hshare (fun f k h => h.2) order
    (by omega) (tensor_init hne ha.2.2 hal hes) (by
      intro k hk fuel m' hm'
      have := hfit k hk fuel ⟨m', args.length⟩ (by rw [hred, hm']; rfl)
      rwa [Nat.zero_add])
  exact ⟨N, ⟨m, args.length⟩, fun fuel hf => by rw [hred, hm fuel hf]; rfl⟩

/-- C15: the first order always succeeds unless the function is too large. -/
theorem diff_tensors_first_order_total (hH : HexOk H) (hshare : ∀ es, Represents (share es) es) (hes : ∀ e ∈ es, LibExpr H e)
    (hne : es ≠ []) (ha : ArgsFor es dargs args) (hal : args.length < 2 ^ 32)
    (hsize : (inputs es).length + Expr.fnCountL (es.map (prep (inputs es))) + es.length ≤ 2 ^ 32) :
    ∃ N d, ∀ fuel, N ≤ fuel → diffTensors fuel share es dargs 1 = some (.ok (d, args)) := by
  refine diff_tensors_total hH hshare hes (by norm_num) hne ha hal (by omega) fun k hk fuel d' hd' => ?_
  obtain rfl : k = 0 := by omega
  obtain ⟨-, -, -, -, -, h6⟩ := diffTensors_ok hd'
  rw [orderLoop] at h6
  simp only [Option.some.injEq, Res.ok.injEq] at h6
  intro fuel' dc hdc
  have he : (d'.map.filter fun p => degree p.1.2 == 0).map (·.2) = es := by
    rw [← h6, List.filter_eq_self.2]
    · rw [List.map_map]
      exact List.zipIdx_map_fst 0 es
    · intro p hp
      obtain ⟨q, -, rfl⟩ := List.mem_map.1 hp
      rfl
  rw [he] at hdc
  exact (diffDecompose_size hshare hdc).trans hsize

/-- C15: **rejected calls**: no components, no arguments, an invalid enumerator, an argument that is neither a variable nor a
parameter, duplicate arguments. -/
theorem diff_tensors_rejects :
    diffTensors fuel share [] dargs order = some .throw ∧
    diffTensors fuel share es .invalid order = some .throw ∧
    diffTensors fuel share es (.list []) order = some .throw ∧
    (inVars es = [] → diffTensors fuel share es .vars order = some .throw) ∧
    (inPars es = [] → diffTensors fuel share es .params order = some .throw) ∧
    (∀ as : List (Expr ℝ), (∃ a ∈ as, ∀ x, a ≠ ofDVar x) → diffTensors fuel share es (.list as) order = some .throw) ∧
    ∀ args : List DVar, ¬ args.Nodup → diffTensors fuel share es (.list (args.map ofDVar)) order = some .throw := by
  have hsplit : ∀ dargs : DArgs ℝ, (es ≠ [] → diffTensors fuel share es dargs order = some .throw) →
      diffTensors fuel share es dargs order = some .throw := by
    intro dargs h
    by_cases he : es = []
    · subst he; rfl
    · exact h he
  refine ⟨rfl, hsplit _ fun he => ?_, hsplit _ fun he => ?_, fun hv => hsplit _ fun he => ?_, fun hv => hsplit _ fun he => ?_,
    fun as ha => hsplit _ fun he => ?_, fun args hn => hsplit _ fun he => ?_⟩ <;>
    (unfold diffTensors; rw [if_neg (by simpa using he)])
  · rfl
  · rfl
  · simp [DArgs.exprs, hv]
  · simp [DArgs.exprs, hv]
  · simp only [DArgs.exprs]
    by_cases hs : as.isEmpty = true
    · rw [if_pos hs]
    · rw [if_neg hs]
      cases hd : toDVars as with
      | none => rfl
      | some args =>
        obtain ⟨a, ha, hx⟩ := ha
        rw [toDVars_eq.1 hd] at ha
        obtain ⟨x, -, rfl⟩ := List.mem_map.1 ha
        exact absurd rfl (hx x)
  · simp only [DArgs.exprs]
    by_cases hs : (args.map (ofDVar (K := ℝ))).isEmpty = true
    · rw [if_pos hs]
    · rw [if_neg hs, toDVars_eq.2 rfl]
      simp only
      rw [if_pos hn]

end

/-! ### Examples -/

section
variable [FmtName ℝ]

/-- The function `x·y + exp(par[0])`. -/
def adExample (K : Type) : Expr K := .fn .sum [.fn (.prod false) [.var "x", .var "y"], .fn .exp [.par 0]]

theorem adExample_inputs : inputs [adExample ℝ] = [.var "x", .var "y", .par 0] := by
  with_unfolding_all rfl

/-- The hypotheses are met by this function, with three arguments for one component (reverse mode). -/
example : ∃ share : List (Expr ℝ) → List (Node ℝ), (∀ es, Represents (share es) es) ∧ HexOk (fun _ : ℝ => False) ∧
    (∀ e ∈ [adExample ℝ], LibExpr (fun _ => False) e) ∧
    ∃ N d, ∀ fuel, N ≤ fuel → diffTensors fuel share [adExample ℝ] .all 1 = some (.ok (d, [.var "x", .var "y", .par 0])) := by
  obtain ⟨share, hs⟩ := exists_share
  have hH : HexOk (fun _ : ℝ => False) := ⟨fun _ _ h => h.elim, fun _ h => h.elim⟩
  have hes : ∀ e ∈ [adExample ℝ], LibExpr (fun _ => False) e := by
    intro e he
    rw [List.mem_singleton] at he
    subst he
    simp [LibExpr, adExample, GoodS, GoodSL, LibFn, Fn.libD, Fn.lib, Fn.builtin, hasGrad]
  refine ⟨share, hs, hH, hes, diff_tensors_first_order_total hH hs hes (by simp) ⟨?_, by decide, by simp⟩ (by simp) ?_⟩
  · rw [DArgs.exprs, adExample_inputs]
  · rw [adExample_inputs]
    have : Expr.fnCountL (List.map (prep [.var "x", .var "y", .par 0]) [adExample ℝ]) = 3 := by with_unfolding_all rfl
    rw [this]
    simp

/-- A point where the function is differentiable. -/
example (v : Env ℝ) : Smooth (.var "x") v (adExample ℝ) := by
  simp [adExample, Smooth, SmoothL, DiffPt, Expr.eval, Expr.evalL, app_def, realApp]

/-- Derivatives of every order exist at every point. -/
example (v : Env ℝ) : Reg v (adExample ℝ) := by
  refine reg_sum ?_
  simp only [List.mem_cons, List.not_mem_nil, or_false, forall_eq_or_imp, forall_eq]
  refine ⟨reg_prod ?_, reg_fn1 (x := v.par 0) ⟨trivial, by simp⟩ trivial⟩
  simp [Reg]

end

/-- No function is evaluated in the example below. -/
local instance adInterp : Interp ℚ := { fold := fun _ _ => none, app := fun _ _ => none }

mutual
/-- The graph of an expression without shared objects. -/
def fresh {K : Type} (n : Nat) : Expr K → Node K × Nat
  | .num c => (.num c, n)
  | .var s => (.var s, n)
  | .par i => (.par i, n)
  | .fn f args => (.fn n none f (freshL (n + 1) args).1, (freshL (n + 1) args).2)
/-- The same for lists. -/
def freshL {K : Type} (n : Nat) : List (Expr K) → List (Node K) × Nat
  | [] => ([], n)
  | e :: es => ((fresh n e).1 :: (freshL (fresh n e).2 es).1, (freshL (fresh n e).2 es).2)
end

/-- The derivatives found in a tensor. -/
def entriesOf (r : Option (Res (Dt (Expr ℚ) × List DVar))) : Option (List (SIdx × Expr ℚ)) :=
  match r with
  | some (.ok (d, _)) => some d.map
  | _ => none

/-- Second-order derivatives of `x·y`: forward mode from the second order on. -/
example : entriesOf (diffTensors 100 (fun es => (freshL 0 es).1) [.fn (.prod false) [.var "x", .var "y"]] .all 2) =
    some [((0, []), .fn (.prod false) [.var "x", .var "y"]), ((0, [(0, 1)]), .var "y"), ((0, [(1, 1)]), .var "x"),
      ((0, [(0, 2)]), .dbl 0), ((0, [(0, 1), (1, 1)]), .dbl 1), ((0, [(1, 2)]), .dbl 0)] := by
  decide +kernel

end Heyoka.AD

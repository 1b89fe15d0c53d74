import Verif.AD.Loops

/-!
# The form of the derivatives

Expressions in which variables occur only as the arguments of certain functions: differentiation does not bring the
variables out of these functions.
-/

set_option linter.unusedSectionVars false

namespace Heyoka.AD

open Heyoka.Sym Heyoka.Dtens

/-! ### Sets of expressions closed under sums and products -/

section
variable {K : Type} [Field K] [LinearOrder K] [FloorRing K] [Fold K]

/-- A set of expressions containing the numbers, the sums and the products of its elements. -/
structure SumClosed (G : Expr K → Prop) : Prop where
  num : ∀ n, G (.num n)
  sum : ∀ es, (∀ e ∈ es, G e) → G (.fn .sum es)
  prod : ∀ b es, (∀ e ∈ es, G e) → G (.fn (.prod b) es)

variable {G : Expr K → Prop} (hG : SumClosed G)
include hG

theorem SumClosed.sumFinish {args : List (Expr K)} (h : ∀ a ∈ args, G a) : G (sumFinish args) := by
  unfold Sym.sumFinish
  split
  · exact hG.num _
  · exact h _ (by simp)
  · refine hG.sum _ fun a ha => h a ?_
    rcases List.mem_append.1 ha with ha | ha <;> exact (List.mem_filter.1 ha).1

theorem SumClosed.sumE {args : List (Expr K)} (h : ∀ a ∈ args, G a) : G (sumE args) := by
  have hnn : ∀ a ∈ args.filter (!·.isNum), G a := fun a ha => h a (List.mem_filter.1 ha).1
  unfold Sym.sumE
  simp only
  split
  · exact hG.sumFinish hnn
  · split_ifs
    · exact hG.num _
    · exact hG.sumFinish hnn
    · refine hG.sumFinish fun a ha => ?_
      rcases List.mem_append.1 ha with ha | ha
      · exact hnn a ha
      · rw [List.mem_singleton] at ha; subst ha; exact hG.num _

theorem SumClosed.prodFinish {args : List (Expr K)} (h : ∀ a ∈ args, G a) : G (prodFinish args) := by
  unfold Sym.prodFinish
  split
  · exact hG.num _
  · exact h _ (by simp)
  · refine hG.prod _ _ fun a ha => h a ?_
    rcases List.mem_append.1 ha with ha | ha <;> exact (List.mem_filter.1 ha).1

theorem SumClosed.prodE {args : List (Expr K)} (h : ∀ a ∈ args, G a) : G (prodE args) := by
  have hnn : ∀ a ∈ args.filter (!·.isNum), G a := fun a ha => h a (List.mem_filter.1 ha).1
  unfold Sym.prodE
  simp only
  split
  · exact hG.prodFinish hnn
  · split_ifs
    · exact hG.num _
    · exact hG.prodFinish hnn
    · exact hG.num _
    · refine hG.prodFinish fun a ha => ?_
      rcases List.mem_append.1 ha with ha | ha
      · exact hnn a ha
      · rw [List.mem_singleton] at ha; subst ha; exact hG.num _

theorem SumClosed.mulE {a b : Expr K} (ha : G a) (hb : G b) : G (mulE a b) := by
  unfold Sym.mulE
  split
  · exact hG.num _
  · refine hG.prodE fun x hx => ?_
    simp only [List.mem_cons, List.not_mem_nil, or_false] at hx
    rcases hx with rfl | rfl
    · exact ha
    · exact hb

end

/-! ### Expressions without variables, except in given functions -/

section
variable {K : Type}

mutual
/-- Expressions without variables, except in the functions `D` of the arguments `A`. The other functions satisfy `S`,
the indices of the parameters satisfy `R`. -/
def Cl (S : Fn K → Nat → Prop) (R : Nat → Prop) (A : List (Expr K)) (D : Fn K → Prop) : Expr K → Prop
  | .num _ => True
  | .var _ => False
  | .par i => R i
  | .fn f args => (S f args.length ∧ ClL S R A D args) ∨ (D f ∧ args = A)
/-- The same for lists. -/
def ClL (S : Fn K → Nat → Prop) (R : Nat → Prop) (A : List (Expr K)) (D : Fn K → Prop) : List (Expr K) → Prop
  | [] => True
  | e :: es => Cl S R A D e ∧ ClL S R A D es
end

variable {S : Fn K → Nat → Prop} {R : Nat → Prop} {A : List (Expr K)} {D : Fn K → Prop}

theorem clL_iff {es : List (Expr K)} : ClL S R A D es ↔ ∀ e ∈ es, Cl S R A D e := by
  induction es with
  | nil => simp [ClL]
  | cons e es ih => simp [ClL, ih]

theorem cl_fn {f : Fn K} {args : List (Expr K)} :
    Cl S R A D (.fn f args) ↔ (S f args.length ∧ ∀ e ∈ args, Cl S R A D e) ∨ (D f ∧ args = A) := by
  rw [Cl, clL_iff]

theorem Cl.mono {D' : Fn K → Prop} (hD : ∀ f, D f → D' f) {e : Expr K} (h : Cl S R A D e) : Cl S R A D' e := by
  induction e using Expr.ind with
  | num n => trivial
  | var s => exact h.elim
  | par i => exact h
  | fn f args ih =>
    rw [cl_fn] at h ⊢
    rcases h with h | h
    · exact .inl ⟨h.1, fun a ha => ih a ha (h.2 a ha)⟩
    · exact .inr ⟨hD f h.1, h.2⟩

end

/-- The functions `D d` of the arguments `A`: `dfun` objects, the gradients of those in `D d` are in `D (d + 1)`. The other
functions `S` do not contain `dfun` objects. -/
structure SynOk (S : Fn ℝ → Nat → Prop) (A : List DVar) (D : Nat → Fn ℝ → Prop) : Prop where
  closed : GradClosed S
  norm : ∀ f k, S f.norm k ↔ S f k
  notin : ∀ id ix k, ¬ S (.dfun id ix) k
  dfun : ∀ d f, D d f → ∃ id ix, f = .dfun id ix
  mono : ∀ d f, D d f → D (d + 1) f
  bump : ∀ d id ix i, D d (.dfun id ix) → i < A.length → D (d + 1) (.dfun id (bumpIdx i false ix))

section
variable {S : Fn ℝ → Nat → Prop} {R : Nat → Prop} {A : List DVar} {D : Nat → Fn ℝ → Prop}

theorem SynOk.not_both (h : SynOk S A D) {d k : Nat} {f : Fn ℝ} (h1 : S f k) (h2 : D d f) : False := by
  obtain ⟨id, ix, rfl⟩ := h.dfun d f h2
  exact h.notin id ix k h1

theorem nrm_map_ofDVar {as : List (Expr ℝ)} {A : List DVar} : as.map nrm = A.map ofDVar ↔ as = A.map ofDVar := by
  induction as generalizing A with
  | nil => simp
  | cons a as ih =>
    cases A with
    | nil => simp
    | cons x A =>
      rw [List.map_cons, List.map_cons, List.cons.injEq, List.cons.injEq, ih]
      refine and_congr_left fun _ => ?_
      cases a with
      | num n =>
        obtain ⟨m, hm, -⟩ := nrmNum_num n
        rw [nrm, hm]
        cases x <;> simp [ofDVar]
      | var s => rw [nrm]
      | par i => rw [nrm]
      | fn f args => rw [nrm]; cases x <;> simp [ofDVar]

theorem SynOk.norm_D (h : SynOk S A D) (d : Nat) (f : Fn ℝ) : D d f.norm ↔ D d f := by
  constructor
  · intro hf
    obtain ⟨id, ix, he⟩ := h.dfun d _ hf
    have : f = .dfun id ix := by cases f <;> simp [Fn.norm] at he ⊢; exact he
    subst this
    exact hf
  · intro hf
    obtain ⟨id, ix, rfl⟩ := h.dfun d _ hf
    exact hf

theorem SynOk.nrm (h : SynOk S A D) {d : Nat} {e : Expr ℝ} :
    Cl S R (A.map ofDVar) (D d) (nrm e) ↔ Cl S R (A.map ofDVar) (D d) e := by
  induction e using Expr.ind with
  | num n =>
    obtain ⟨m, hm, -⟩ := nrmNum_num n
    rw [AD.nrm, hm]
    exact Iff.rfl
  | var s => exact Iff.rfl
  | par i => exact Iff.rfl
  | fn f args ih =>
    rw [nrm_fn, cl_fn, cl_fn, h.norm, h.norm_D, nrm_map_ofDVar, List.length_map]
    refine or_congr (and_congr_right fun _ => ?_) Iff.rfl
    simpa using forall₂_congr ih

theorem SynOk.split2 (h : SynOk S A D) {d : Nat} {e : Expr ℝ} (he : Cl S R (A.map ofDVar) (D d) e) :
    Cl S R (A.map ofDVar) (D d) (split2 e) := by
  induction e using Expr.ind with
  | num n => exact he
  | var n => exact he
  | par n => exact he
  | fn f args ih =>
    rw [AD.split2, Expr.mapNodes, Expr.mapNodesL_eq_map]
    rw [cl_fn] at he
    rcases he with he | ⟨hf, rfl⟩
    · have hargs : ∀ a ∈ args.map (Expr.mapNodes id (prodSplit 2 (by decide))), Cl S R (A.map ofDVar) (D d) a := by
        intro a ha
        obtain ⟨b, hb, rfl⟩ := List.mem_map.1 ha
        exact ih b hb (he.2 b hb)
      have hfn : Cl S R (A.map ofDVar) (D d) (.fn f (args.map (Expr.mapNodes id (prodSplit 2 (by decide))))) :=
        cl_fn.2 (.inl ⟨by simpa using he.1, hargs⟩)
      unfold prodSplit
      split
      · rename_i neg as heq
        cases heq
        split_ifs
        · exact hfn
        · exact udfSplit_all (Q := Cl S R (A.map ofDVar) (D d)) (by decide)
            (fun as _ ha => cl_fn.2 (.inl ⟨h.closed.prod _ _, ha⟩)) _ hargs
      · exact hfn
    · have : (A.map ofDVar).map (Expr.mapNodes id (prodSplit (K := ℝ) 2 (by decide))) = A.map ofDVar := by
        rw [List.map_map]
        refine List.map_congr_left fun x _ => ?_
        cases x <;> rfl
      rw [this]
      obtain ⟨id, ix, rfl⟩ := h.dfun d f hf
      exact cl_fn.2 (.inr ⟨hf, rfl⟩)

theorem SynOk.argClosed (h : SynOk S A D) (d : Nat) : ArgClosed (Cl S R (A.map ofDVar) (D d)) := by
  intro f args hf a ha hfn
  rw [cl_fn] at hf
  rcases hf with hf | ⟨-, rfl⟩
  · exact hf.2 a ha
  · obtain ⟨x, -, rfl⟩ := List.mem_map.1 ha
    cases x <;> cases hfn

end

/-! ### The derivatives of one order -/

section
variable [DFunc] [FmtName ℝ] {S S0 : Fn ℝ → Nat → Prop} {ins : List DVar} {c outs : List (Expr ℝ)} {rows : List (Row ℝ)}
variable {prev : List (SIdx × Expr ℝ)} {R : Nat → Prop} {A : List DVar} {D : Nat → Fn ℝ → Prop} {d : Nat}

/-- The elements of the decomposition. -/
theorem Ctx.full_cl (h : Ctx S ins c outs rows prev) (hs : SynOk S0 A D)
    (hp : ∀ p ∈ prev, Cl S0 R (A.map ofDVar) (D d) p.2) {k : Nat} (h1 : ins.length ≤ k) (h2 : k < c.length) :
    ∃ e, (full ins.length c outs)[k]? = some e ∧ Cl S0 R (A.map ofDVar) (D d) e := by
  obtain ⟨e, e', he, hT, hn⟩ := h.elems _ (hs.argClosed (R := R) d) (fun p hm => hs.split2 (hp p hm)) k h1 h2
  refine ⟨e, ?_, by rw [← hs.nrm, hn, hs.nrm]; exact hT⟩
  rw [full, List.getElem?_append_left (by rw [expand_length]; exact h2), he]

theorem subsAll_cl {Y : List (Expr ℝ)} {D : Fn ℝ → Prop} {A : List (Expr ℝ)} {Q : String → Prop}
    (hQ : ∀ s, Q s → Cl S0 R A D (subsAll Y (.var s))) {e : Expr ℝ} (h : GoodS S0 Q (fun _ => False) e) :
    Cl S0 R A D (subsAll Y e) := by
  induction e using Expr.ind with
  | num m => trivial
  | par i => exact h.elim
  | var s => exact hQ s h
  | fn f args ih =>
    rw [goodS_fn] at h
    rw [subsAll_fn, cl_fn]
    refine .inl ⟨by simpa using h.1, fun a ha => ?_⟩
    obtain ⟨b, hb, rfl⟩ := List.mem_map.1 ha
    exact ih b hb (h.2 b hb)

theorem collect_mem {s : String} {g : Expr ℝ} : ∀ {args gs : List (Expr ℝ)}, g ∈ collect s args gs → g ∈ gs := by
  intro args
  induction args with
  | nil => intro gs hg; simp [collect] at hg
  | cons a as ih =>
    intro gs hg
    cases gs with
    | nil => cases a <;> simp [collect] at hg
    | cons g' gs =>
      cases a with
      | var t =>
        rw [collect] at hg
        split_ifs at hg
        · rcases List.mem_cons.1 hg with rfl | hg
          · exact List.mem_cons_self
          · exact List.mem_cons_of_mem _ (ih hg)
        · exact List.mem_cons_of_mem _ (ih hg)
      | num n => rw [collect] at hg <;> first | exact List.mem_cons_of_mem _ (ih hg) | simp
      | par n => rw [collect] at hg <;> first | exact List.mem_cons_of_mem _ (ih hg) | simp
      | fn f as' => rw [collect] at hg <;> first | exact List.mem_cons_of_mem _ (ih hg) | simp

theorem SynOk.sumClosed (hs : SynOk S0 A D) (Y : List (Expr ℝ)) :
    SumClosed fun e => Cl S0 R (A.map ofDVar) (D d) (subsAll Y e) := by
  refine ⟨fun _ => trivial, fun es he => ?_, fun b es he => ?_⟩
  · rw [subsAll_fn, cl_fn]
    exact .inl ⟨by simpa using hs.closed.sum _, by simpa using he⟩
  · rw [subsAll_fn, cl_fn]
    exact .inl ⟨by simpa using hs.closed.prod _ _, by simpa using he⟩

/-- The partial derivatives of the elements. -/
theorem Ctx.adj_cl (h : Ctx S ins c outs rows prev) (hs : SynOk S0 A D)
    (hp : ∀ p ∈ prev, Cl S0 R (A.map ofDVar) (D d) p.2) :
    ∀ k, ∀ l ∈ dep rows k, ∀ a, adjFind rows k l = some a →
      Cl S0 R (A.map ofDVar) (D (d + 1)) (subsAll (full ins.length c outs) a) := by
  intro k l hl a ha
  have hk := (h.dag h.rows).lt_N hl
  rcases h.cases h.rows k hk with ⟨-, y, -, -, hd⟩ | ⟨hi, f, args, gs, hck, hf, hleaf, hfull, hrow⟩ | ⟨hc, ⟨m, -, hd⟩ | ⟨l', hl', hd, hf, -⟩⟩
  · rw [hd] at hl; cases hl
  · rw [hrow.find l hl] at ha
    cases ha
    have hkc : k < c.length := (List.getElem?_eq_some_iff.1 hck).1
    have hsub : ∀ b ∈ args, subsAll (expand ins.length c) b = subsAll (full ins.length c outs) b := fun b hb =>
      subsAll_leaf (i := k) (fun j hj => by rw [full, List.getElem?_append_left (by rw [expand_length]; omega)]) (hleaf b hb)
    rw [List.map_congr_left hsub] at hfull
    obtain ⟨e, he, hcl⟩ := h.full_cl (outs := outs) hs hp hi hkc
    rw [hfull] at he
    cases he
    refine (hs.sumClosed (R := R) (d := d + 1) (full ins.length c outs)).sumE fun g hg => ?_
    have hg := collect_mem hg
    rw [cl_fn] at hcl
    rcases hcl with ⟨hS0, hargs⟩ | ⟨hD, hA⟩
    · refine Cl.mono (hs.mono d) (subsAll_cl (Q := fun s => Expr.var s ∈ args) (fun s hm => ?_)
        (gradient_goodS hs.closed hrow.grad (by simpa using hS0) (fun b hb => ?_) g hg))
      · exact hargs _ (List.mem_map_of_mem hm)
      · have := hleaf b hb
        cases b with
        | num n => trivial
        | par i => exact this.elim
        | fn f as => exact this.elim
        | var s => exact hb
    · obtain ⟨id, ix, rfl⟩ := hs.dfun d f hD
      have hgr := hrow.grad
      rw [gradient] at hgr
      cases hgr
      obtain ⟨i, hi, rfl⟩ := List.mem_map.1 hg
      rw [subsAll_fn, hA, cl_fn]
      refine .inr ⟨hs.bump d id ix i hD ?_, rfl⟩
      have := congrArg List.length hA
      rw [List.length_map, List.length_map] at this
      rw [← this]
      exact List.mem_range.1 hi
  · rw [hd] at hl; cases hl
  · rw [hd, List.mem_singleton] at hl
    subst hl
    rw [hf] at ha
    cases ha
    trivial

/-- The new derivatives. -/
theorem Ctx.gen_cl (h : Ctx S ins c outs rows prev) (hs : SynOk S0 A D)
    (hp : ∀ p ∈ prev, Cl S0 R (A.map ofDVar) (D d) p.2) {e : Expr ℝ} (he : Gen rows e) :
    Cl S0 R (A.map ofDVar) (D (d + 1)) (subsAll (full ins.length c outs) e) :=
  he (fun e => Cl S0 R (A.map ofDVar) (D (d + 1)) (subsAll (full ins.length c outs) e))
    ⟨fun _ => trivial, fun _ hes => (hs.sumClosed _).sumE hes, fun _ _ h1 h2 => (hs.sumClosed _).mulE h1 h2⟩ (h.adj_cl hs hp)

end

end Heyoka.AD

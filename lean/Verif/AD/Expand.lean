import Verif.AD.Norm
import Verif.AD.Good
import Verif.Decomp.FunDecLemmas

/-!
# The elements of a decomposition in terms of the inputs

The elements of the decomposition expressed by the original inputs: after the decomposition the outputs
are the prepared components, and the elimination of common subexpressions does not change them up to
the equality of expressions.
-/

set_option linter.unusedSectionVars false

namespace Heyoka.AD

open Heyoka.Sym

section
variable {K : Type}

/-- An argument of the `i`-th element: a number or an earlier `u` variable. -/
def LeafOk (i : Nat) : Expr K → Prop
  | .var s => ∃ j, j < i ∧ s = uname j
  | .num _ => True
  | _ => False

theorem LeafOk.mono {i j : Nat} (h : i ≤ j) {a : Expr K} (ha : LeafOk i a) : LeafOk j a := by
  cases a with
  | var s => obtain ⟨k, hk, rfl⟩ := ha; exact ⟨k, by omega, rfl⟩
  | num n => trivial
  | _ => exact ha

/-- A decomposition (without the outputs) is well-formed. -/
structure DcW (S : Fn K → Nat → Prop) (n : Nat) (dc : List (Expr K)) : Prop where
  len : n ≤ dc.length
  elem : ∀ (i : Nat) (e : Expr K), dc[i]? = some e → n ≤ i →
    ∃ f args, e = .fn f args ∧ S f args.length ∧ ∀ a ∈ args, LeafOk i a

theorem DcW.snoc {S : Fn K → Nat → Prop} {n : Nat} {dc : List (Expr K)} (h : DcW S n dc) {f : Fn K}
    {args : List (Expr K)} (hf : S f args.length) (ha : ∀ a ∈ args, LeafOk dc.length a) :
    DcW S n (dc ++ [.fn f args]) := by
  refine ⟨by simp; have := h.len; omega, fun i e he hi => ?_⟩
  rcases Nat.lt_or_ge i dc.length with hlt | hge
  · rw [List.getElem?_append_left hlt] at he
    exact h.elem i e he hi
  · rw [List.getElem?_append_right hge] at he
    obtain ⟨hi0, rfl⟩ : i = dc.length ∧ e = .fn f args := by
      cases hk : i - dc.length with
      | zero => rw [hk] at he; simp at he; exact ⟨by omega, he.symm⟩
      | succ k => rw [hk] at he; simp at he
    exact ⟨f, args, rfl, hf, hi0 ▸ ha⟩

theorem DcW.prefix {S : Fn K → Nat → Prop} {n : Nat} {dc d : List (Expr K)} (h : DcW S n (dc ++ d))
    (hl : n ≤ dc.length) : DcW S n dc := by
  refine ⟨hl, fun i e he hi => h.elem i e ?_ hi⟩
  rw [List.getElem?_append_left]
  · exact he
  · exact (List.getElem?_eq_some_iff.1 he).1

/-! ### Lookup -/

theorem lookup_nodup {α β : Type} [DecidableEq α] {l : List (α × β)} (h : (l.map Prod.fst).Nodup) {a : α} {b : β}
    (hm : (a, b) ∈ l) : l.lookup a = some b := by
  induction l with
  | nil => cases hm
  | cons p l ih =>
    obtain ⟨c, d⟩ := p
    rw [List.map_cons, List.nodup_cons] at h
    rw [List.lookup_cons]
    rcases List.mem_cons.1 hm with h1 | hm2
    · cases h1; simp
    · have : (a == c) = false := by
        rw [beq_eq_false_iff_ne]
        rintro rfl
        exact h.1 (List.mem_map.2 ⟨_, hm2, rfl⟩)
      rw [this]
      exact ih h.2 hm2

theorem subsLook_uname (acc : List (Expr K)) (i : Nat) : subsLook acc (uname i) = acc[i]? := by
  unfold subsLook
  cases h : acc[i]? with
  | some e =>
    refine lookup_nodup ?_ ?_
    · rw [List.map_map]
      have : (Prod.fst ∘ fun p : Expr K × Nat => (uname p.2, p.1)) = uname ∘ Prod.snd := rfl
      rw [this, ← List.map_map]
      refine List.Nodup.map (fun a b h => uname_inj h) ?_
      rw [List.zipIdx_map_snd]
      exact List.nodup_range'
    · refine List.mem_map.2 ⟨(e, i), ?_, rfl⟩
      refine List.mem_iff_getElem?.2 ⟨i, ?_⟩
      rw [List.getElem?_zipIdx, h]; simp
  | none =>
    rw [List.lookup_eq_none_iff]
    intro p hp
    obtain ⟨q, hq, rfl⟩ := List.mem_map.1 hp
    have := List.snd_lt_of_mem_zipIdx hq
    rw [List.getElem?_eq_none_iff] at h
    simp only [bne_iff_ne, ne_eq, uname_eq_iff]
    omega

theorem subsAll_fn (acc : List (Expr K)) (f : Fn K) (args : List (Expr K)) :
    subsAll acc (.fn f args) = .fn f (args.map (subsAll acc)) := by
  unfold subsAll
  rw [Expr.mapNodes, Expr.mapNodesL_eq_map]
  rfl

theorem subsAll_num (acc : List (Expr K)) (n : Num K) : subsAll acc (.num n) = .num n := rfl

theorem subsAll_uname {acc : List (Expr K)} {i : Nat} {e : Expr K} (h : acc[i]? = some e) :
    subsAll acc (.var (uname i)) = e := by
  show (subsLook acc (uname i)).getD _ = e
  rw [subsLook_uname, h]
  rfl

theorem subsAll_leaf {acc acc' : List (Expr K)} {i : Nat} (h : ∀ j, j < i → acc[j]? = acc'[j]?) {a : Expr K}
    (ha : LeafOk i a) : subsAll acc a = subsAll acc' a := by
  cases a with
  | num n => rfl
  | var s =>
    obtain ⟨j, hj, rfl⟩ := ha
    show (subsLook acc (uname j)).getD _ = (subsLook acc' (uname j)).getD _
    rw [subsLook_uname, subsLook_uname, h j hj]
  | par i => exact ha.elim
  | fn f as => exact ha.elim

theorem subsAll_congr {acc acc' : List (Expr K)} {i : Nat} (h : ∀ j, j < i → acc[j]? = acc'[j]?) {f : Fn K}
    {args : List (Expr K)} (ha : ∀ a ∈ args, LeafOk i a) :
    subsAll acc (.fn f args) = subsAll acc' (.fn f args) := by
  rw [subsAll_fn, subsAll_fn]
  congr 1
  exact List.map_congr_left fun a hm => subsAll_leaf h (ha a hm)

/-! ### Expansion -/

theorem expandMid_append (es fs : List (Expr K)) : ∀ acc,
    expandMid acc (es ++ fs) = expandMid (expandMid acc es) fs := by
  induction es with
  | nil => intro acc; rfl
  | cons e es ih => intro acc; rw [List.cons_append, expandMid, expandMid, ih]

theorem expandMid_length (es : List (Expr K)) : ∀ acc, (expandMid acc es).length = acc.length + es.length := by
  induction es with
  | nil => intro acc; rfl
  | cons e es ih => intro acc; rw [expandMid, ih]; simp; omega

theorem expandMid_prefix (es : List (Expr K)) : ∀ acc, acc <+: expandMid acc es := by
  induction es with
  | nil => intro acc; exact List.prefix_refl _
  | cons e es ih =>
    intro acc
    rw [expandMid]
    exact (List.prefix_append _ _).trans (ih _)

/-- The elements in terms of the inputs, `n` of them. -/
def expand (n : Nat) (dc : List (Expr K)) : List (Expr K) := expandMid (dc.take n) (dc.drop n)

theorem expand_length {n : Nat} {dc : List (Expr K)} : (expand n dc).length = dc.length := by
  rw [expand, expandMid_length]; simp; omega

theorem expand_append {n : Nat} {dc d : List (Expr K)} (h : n ≤ dc.length) :
    expand n (dc ++ d) = expandMid (expand n dc) d := by
  rw [expand, List.take_append_of_le_length h, List.drop_append_of_le_length h, expandMid_append]
  rfl

theorem expand_prefix {n : Nat} {dc d : List (Expr K)} (h : n ≤ dc.length) {i : Nat} (hi : i < dc.length) :
    (expand n (dc ++ d))[i]? = (expand n dc)[i]? := by
  rw [expand_append h]
  obtain ⟨t, ht⟩ := expandMid_prefix d (expand n dc)
  rw [← ht, List.getElem?_append_left (by rw [expand_length]; exact hi)]

theorem expand_snoc {n : Nat} {dc : List (Expr K)} (h : n ≤ dc.length) (e : Expr K) :
    (expand n (dc ++ [e]))[dc.length]? = some (subsAll (expand n dc) e) := by
  rw [expand_append h, expandMid, expandMid, List.getElem?_append_right (by rw [expand_length]), expand_length]
  simp

theorem expand_input {n : Nat} {dc : List (Expr K)} {i : Nat} (hi : i < n) : (expand n dc)[i]? = dc[i]? := by
  rcases Nat.lt_or_ge i dc.length with h | h
  · obtain ⟨t, ht⟩ := expandMid_prefix (dc.drop n) (dc.take n)
    rw [expand, ← ht, List.getElem?_append_left (by simp; omega), List.getElem?_take, if_pos hi]
  · rw [List.getElem?_eq_none h, List.getElem?_eq_none (by rw [expand_length]; exact h)]

/-- An element in terms of the inputs. -/
theorem expand_elem {S : Fn K → Nat → Prop} {n : Nat} {dc : List (Expr K)} (h : DcW S n dc) {i : Nat} {e : Expr K}
    (he : dc[i]? = some e) (hi : n ≤ i) : (expand n dc)[i]? = some (subsAll (expand n dc) e) := by
  obtain ⟨hlt, rfl⟩ := List.getElem?_eq_some_iff.1 he
  have hsplit : dc = (dc.take i ++ [dc[i]]) ++ dc.drop (i + 1) := by
    simp
  obtain ⟨f, args, hf, -, ha⟩ := h.elem i _ he hi
  have hti : (dc.take i).length = i := by simp; omega
  have h1 : (expand n dc)[i]? = some (subsAll (expand n (dc.take i)) dc[i]) := by
    conv_lhs => rw [hsplit]
    rw [expand_prefix (by simp; omega) (by simp; omega)]
    have := expand_snoc (n := n) (dc := dc.take i) (by simp; omega) dc[i]
    rwa [hti] at this
  rw [h1, hf]
  congr 1
  refine subsAll_congr (i := i) (fun j hj => ?_) ha
  conv_rhs => rw [hsplit, List.append_assoc]
  rw [expand_prefix (by simp; omega) (by omega)]

/-! ### The decomposition -/

/-- An element stands for an expression in the renamed inputs. -/
def ExDef (ins : List (Expr K)) (dc : List (Expr K)) (i : Nat) (e : Expr K) : Prop :=
  ins.length ≤ dc.length ∧ i < dc.length ∧ (expand ins.length dc)[i]? = some (subsAll ins e)

/-- The elements which are not inputs stand for functions satisfying `T`. -/
def ElemsOk (T : Expr K → Prop) (ins dc : List (Expr K)) : Prop :=
  ∀ i, ins.length ≤ i → i < dc.length → ∃ e, e.isFn = true ∧ T e ∧ (expand ins.length dc)[i]? = some (subsAll ins e)

/-- The decomposition by appending, in terms of the inputs. -/
def adSpec (S : Fn K → Nat → Prop) (T : Expr K → Prop) (ins : List (Expr K)) : DecSpec (fdcAppend (K := K)) where
  Inv := fun dc => DcW S ins.length dc ∧ dc.take ins.length = ins ∧ ElemsOk T ins dc
  Def := ExDef ins
  good := fun f as => S f as.length ∧ (∀ a ∈ as, a.isFn = true ∨ LeafOk ins.length a) ∧ T (.fn f as)
  mono := fun h => ⟨by have := h.1; simp; omega, by have := h.2.1; simp; omega, by
    rw [expand_prefix h.1 h.2.1]; exact h.2.2⟩
  ok := by
    intro dc f as as' hi hg hst
    have hl := hi.1.len
    have hleaf : ∀ {a' a : Expr K}, Stands (ExDef ins) dc a' a → (a.isFn = true ∨ LeafOk ins.length a) →
        LeafOk dc.length a' ∧ subsAll (expand ins.length dc) a' = subsAll ins a := by
      intro a' a h hg
      unfold Stands at h
      split at h
      · obtain ⟨i, rfl, -, h2, h3⟩ := h
        exact ⟨⟨i, h2, rfl⟩, subsAll_uname h3⟩
      · rename_i hf
        subst h
        have hlo : LeafOk ins.length a' := hg.resolve_left hf
        refine ⟨hlo.mono hl, subsAll_leaf (i := ins.length) (fun j hj => ?_) hlo⟩
        rw [expand_input hj]
        conv_rhs => rw [← hi.2.1]
        rw [List.getElem?_take, if_pos hj]
    have hall : (∀ a ∈ as', LeafOk dc.length a) ∧
        as'.map (subsAll (expand ins.length dc)) = as.map (subsAll ins) := by
      have hg2 := hg.2.1
      clear hg
      induction hst with
      | nil => exact ⟨by simp, rfl⟩
      | @cons x y xs ys h1 _ ih =>
        obtain ⟨i1, i2⟩ := ih fun a ha => hg2 a (List.mem_cons_of_mem _ ha)
        obtain ⟨j1, j2⟩ := hleaf h1 (hg2 y List.mem_cons_self)
        refine ⟨?_, by rw [List.map_cons, List.map_cons, i2, j2]⟩
        intro a ha
        rcases List.mem_cons.1 ha with rfl | ha
        · exact j1
        · exact i1 a ha
    have hnew : (expand ins.length (dc ++ [.fn f as']))[dc.length]? = some (subsAll ins (.fn f as)) := by
      rw [expand_snoc hl, subsAll_fn, subsAll_fn, hall.2]
    refine ⟨dc.length, [.fn f as'], rfl, ⟨hi.1.snoc (hst.length_eq ▸ hg.1) hall.1, ?_, fun i h1 h2 => ?_⟩, ?_, by simp, hnew⟩
    · rw [List.take_append_of_le_length hl, hi.2.1]
    · rcases Nat.lt_or_ge i dc.length with hlt | hge
      · rw [expand_prefix hl hlt]
        exact hi.2.2 i h1 hlt
      · obtain rfl : i = dc.length := by simp at h2; omega
        exact ⟨.fn f as, rfl, hg.2.2, hnew⟩
    · simp; omega

/-- The arguments which are functions satisfy the predicate. -/
def ArgClosed (T : Expr K → Prop) : Prop := ∀ f args, T (.fn f args) → ∀ a ∈ args, a.isFn = true → T a

theorem goodS_consistent {U : Node K → Prop} (hU : Consistent U) (S : Fn K → Nat → Prop) (Q : String → Prop)
    (R : Nat → Prop) {T : Expr K → Prop} (hT : ArgClosed T) :
    Consistent fun n => U n ∧ GoodS S Q R n.toExpr ∧ (n.toExpr.isFn = true → T n.toExpr) where
  closed := fun {id sid f args} h a ha => ⟨hU.closed h.1 a ha, by
    have := h.2.1
    rw [Node.toExpr, goodS_fn, Node.toExprL_eq_map] at this
    exact this.2 _ (List.mem_map_of_mem ha), fun hf => by
    have := h.2.2 rfl
    rw [Node.toExpr, Node.toExprL_eq_map] at this
    exact hT _ _ this _ (List.mem_map_of_mem ha) hf⟩
  id_inj := fun h h' => hU.id_inj h.1 h'.1
  sid_inj := fun h h' => hU.sid_inj h.1 h'.1

theorem forall₂_imp_mem {α β : Type} {R T : α → β → Prop} {as : List α} {bs : List β} (h : List.Forall₂ R as bs)
    (H : ∀ a b, b ∈ bs → R a b → T a b) : List.Forall₂ T as bs := by
  induction h with
  | nil => exact .nil
  | cons h1 _ ih => exact .cons (H _ _ List.mem_cons_self h1) (ih fun a b hb => H a b (List.mem_cons_of_mem _ hb))

/-- An output of the decomposition, in terms of the inputs. -/
def OutDef (ins dc : List (Expr K)) (o e : Expr K) : Prop :=
  LeafOk dc.length o ∧ subsAll (expand ins.length dc) o = subsAll ins e

theorem decAll_expand {S : Fn K → Nat → Prop} {ins : List (Expr K)} {ns : List (Node K)} {es : List (Expr K)}
    (hr : Represents ns es)
    (hg : ∀ e ∈ es, GoodS S (fun s => ∃ j, j < ins.length ∧ s = uname j) (fun _ => False) e)
    {T : Expr K → Prop} (hT : ArgClosed T) (hTes : ∀ e ∈ es, e.isFn = true → T e) :
    ∃ N d outs, (∀ fuel, N ≤ fuel → decAll fdcAppend fuel [] [] ins ns = some (.ok (ins ++ d, outs))) ∧
      DcW S ins.length (ins ++ d) ∧ ElemsOk T ins (ins ++ d) ∧ List.Forall₂ (OutDef ins (ins ++ d)) outs es := by
  obtain ⟨h, roots, hv, hroots, rfl, hes⟩ := hr
  have hmem : ∀ n ∈ roots.map h.unfold, n.toExpr ∈ es := fun n hn => by
    rw [← hes]; exact List.mem_map_of_mem hn
  have hleaf : ∀ e : Expr K, GoodS S (fun s => ∃ j, j < ins.length ∧ s = uname j) (fun _ => False) e →
      e.isFn = true ∨ LeafOk ins.length e := by
    intro e he
    cases e with
    | num n => exact .inr trivial
    | var s => exact .inr he
    | par i => exact he.elim
    | fn f as => exact .inl rfl
  have hinv : DcW S ins.length ins := ⟨le_refl _, fun i e he hi => by
    rw [List.getElem?_eq_none hi] at he; cases he⟩
  obtain ⟨N, d, outs, h1, h2, h3⟩ := (adSpec S T ins).decAll_eq
    (goodS_consistent (Heap.consistent hv) S (fun s => ∃ j, j < ins.length ∧ s = uname j) (fun _ => False) hT)
    (fun id sid f args hu => by
      have := hu.2.1
      rw [Node.toExpr, goodS_fn] at this
      have hT1 := hu.2.2 rfl
      rw [Node.toExpr] at hT1
      exact ⟨this.1, fun a ha => hleaf a (this.2 a ha), hT1⟩)
    (roots.map h.unfold) (fun n hn => by
      refine ⟨?_, hg _ (hmem n hn), hTes _ (hmem n hn)⟩
      obtain ⟨r, hr, rfl⟩ := List.mem_map.1 hn
      exact ⟨r, hroots r hr, rfl⟩)
    [] [] ins ⟨hinv, by simp, fun i h1 h2 => by omega⟩ (by intro id r h; simp at h) (by intro k s h; simp at h)
  refine ⟨N, d, outs, h1, h2.1, h2.2.2, ?_⟩
  rw [hes] at h3
  refine forall₂_imp_mem h3 fun a e he hst => ?_
  unfold Stands at hst
  split at hst
  · obtain ⟨i, rfl, -, hi, hx⟩ := hst
    exact ⟨⟨i, hi, rfl⟩, subsAll_uname hx⟩
  · rename_i hf
    subst hst
    have hlo : LeafOk ins.length a := (hleaf a (hg a he)).resolve_left hf
    refine ⟨hlo.mono (by simp), subsAll_leaf (i := ins.length) (fun j hj => ?_) hlo⟩
    rw [expand_input hj, List.getElem?_append_left hj]

end

end Heyoka.AD

import Verif.AD.Expand

/-!
# The elimination of common subexpressions, in terms of the inputs
-/

set_option linter.unusedSectionVars false

namespace Heyoka.AD

open Heyoka.Sym

variable [DFunc]

variable [FmtName ℝ]

/-- What holds when the elements `pre` have been processed. -/
structure CseX (S : Fn ℝ → Nat → Prop) (n : Nat) (pre ret : List (Expr ℝ)) (exMap : List (Expr ℝ × Nat))
    (ren : List (String × String)) : Prop where
  wf : DcW S n ret
  len : ret.length ≤ pre.length
  pre_eq : ret.take n = pre.take n
  map : ∀ p ∈ exMap, n ≤ p.2 ∧ ret[p.2]? = some p.1
  rens : ∀ j, j < pre.length → ∃ l, l < ret.length ∧ renName (fun s => ren.lookup s) (uname j) = uname l ∧
    (expand n ret)[l]?.map nrm = (expand n pre)[j]?.map nrm
  orig : ∀ l, n ≤ l → l < ret.length → ∃ j, n ≤ j ∧ j < pre.length ∧
    (expand n ret)[l]?.map nrm = (expand n pre)[j]?.map nrm

theorem leaf_rename {m : List (String × String)} {i k : Nat} {X Y : List (Expr ℝ)} {a : Expr ℝ} (ha : LeafOk i a)
    (hY : Y.length = i)
    (h : ∀ j, j < i → ∃ l, l < k ∧ renName (fun s => m.lookup s) (uname j) = uname l ∧
      X[l]?.map nrm = Y[j]?.map nrm) :
    LeafOk k (renameIn m a) ∧ nrm (subsAll X (renameIn m a)) = nrm (subsAll Y a) := by
  cases a with
  | num n => exact ⟨trivial, rfl⟩
  | par i => exact ha.elim
  | fn f as => exact ha.elim
  | var s =>
    obtain ⟨j, hj, rfl⟩ := ha
    obtain ⟨l, h1, h2, h3⟩ := h j hj
    have hr : renameIn (K := ℝ) m (.var (uname j)) = .var (uname l) := by
      rw [renameIn, Expr.mapNodes, renameLeaf_var, h2]
    rw [hr]
    refine ⟨⟨l, h1, rfl⟩, ?_⟩
    have hy : Y[j]? = some Y[j] := by simp
    rw [hy] at h3
    cases hx : X[l]? with
    | none => rw [hx] at h3; cases h3
    | some x =>
      rw [hx] at h3
      rw [subsAll_uname hx, subsAll_uname hy]
      exact Option.some.inj h3

theorem nrm_node_of_beq {P : Fn ℝ → Prop} (hP : NormSound P) {f g : Fn ℝ} {as bs : List (Expr ℝ)} (hf : P f)
    (hg : P g) {i : Nat} (ha : ∀ a ∈ as, LeafOk i a) (h : (Expr.fn f as).beq (.fn g bs) = true) :
    nrm (.fn f as) = nrm (.fn g bs) := by
  simp only [Expr.beq, Bool.and_eq_true, beq_iff_eq] at h
  rw [nrm_fn, nrm_fn, hP f g hf hg h.1, nrm_leaves_of_beq (fun a hm => ?_) h.2]
  have := ha a hm
  cases a with
  | fn f as => exact this.elim
  | _ => rfl

theorem cseLoop_expand {S : Fn ℝ → Nat → Prop} {P : Fn ℝ → Prop} (hP : NormSound P) (hS : ∀ f k, S f k → P f)
    {n : Nat} (es : List (Expr ℝ)) :
    ∀ (pre ret : List (Expr ℝ)) (exMap : List (Expr ℝ × Nat)) (ren : List (String × String)),
      DcW S n (pre ++ es) → n ≤ pre.length → CseX S n pre ret exMap ren →
      ∃ m, CseX S n (pre ++ es) (cseLoop pre.length ret exMap ren es).1 m
        (cseLoop pre.length ret exMap ren es).2 := by
  induction es with
  | nil => intro pre ret exMap ren _ _ h; exact ⟨exMap, by simpa [cseLoop] using h⟩
  | cons e es ih =>
    intro pre ret exMap ren hw hn h
    have hw' : DcW S n ((pre ++ [e]) ++ es) := by simpa using hw
    obtain ⟨f, args, rfl, hf, ha⟩ := hw.elem pre.length e (by simp) hn
    have hfn : renameIn ren (.fn f args) = .fn f (args.map (renameIn ren)) :=
      rename_fn (fun s => ren.lookup s) f args
    have hargs : ∀ a ∈ args, LeafOk ret.length (renameIn ren a) ∧
        nrm (subsAll (expand n ret) (renameIn ren a)) = nrm (subsAll (expand n pre) a) := fun a hm =>
      leaf_rename (ha a hm) expand_length h.rens
    have hval : nrm (subsAll (expand n ret) (renameIn ren (.fn f args))) =
        nrm (subsAll (expand n pre) (.fn f args)) := by
      rw [hfn, subsAll_fn, subsAll_fn, nrm_fn, nrm_fn, List.map_map, List.map_map, List.map_map]
      congr 1
      exact List.map_congr_left fun a hm => (hargs a hm).2
    have hnr := h.wf.len
    have hne : ∀ j, j < pre.length → uname j ≠ uname pre.length := fun j hj hc => by
      have := uname_inj hc; omega
    have hnew : (expand n (pre ++ [Expr.fn f args]))[pre.length]? =
        some (subsAll (expand n pre) (.fn f args)) := expand_snoc hn _
    -- the facts common to the two cases
    have common : ∀ (ret' : List (Expr ℝ)) (m' : List (Expr ℝ × Nat)) (k : Nat) (x : Expr ℝ),
        k < ret'.length → (∀ l, l < ret'.length → l < ret.length ∨ l = k) → DcW S n ret' → (∃ t, ret' = ret ++ t) → ret'.length ≤ pre.length + 1 →
        (∀ p ∈ m', n ≤ p.2 ∧ ret'[p.2]? = some p.1) →
        (expand n ret')[k]? = some x → nrm x = nrm (subsAll (expand n pre) (.fn f args)) →
        CseX S n (pre ++ [.fn f args]) ret' m' ((uname pre.length, uname k) :: ren) := by
      rintro ret' m' k x hk hlk hwf ⟨t, rfl⟩ hlen hm hx hxn
      refine ⟨hwf, by simpa using hlen, ?_, hm, ?_, fun l h1 h2 => ?_⟩
      · rw [List.take_append_of_le_length hnr, h.pre_eq, List.take_append_of_le_length hn]
      · intro j hj
        simp only [List.length_append, List.length_cons, List.length_nil] at hj
        rcases Nat.lt_or_ge j pre.length with hlt | hge
        · obtain ⟨l, h1, h2, h3⟩ := h.rens j hlt
          refine ⟨l, by simp; omega, by rw [renName_cons (hne j hlt), h2], ?_⟩
          rw [expand_prefix hnr h1, expand_prefix hn hlt, h3]
        · obtain rfl : j = pre.length := by omega
          refine ⟨k, hk, renName_cons_self, ?_⟩
          rw [hx, hnew, Option.map_some, Option.map_some, hxn]
      · by_cases hlt : l < ret.length
        · obtain ⟨j, g1, g2, g3⟩ := h.orig l h1 hlt
          exact ⟨j, g1, by simp; omega, by rw [expand_prefix hnr hlt, expand_prefix hn g2, g3]⟩
        · obtain rfl := (hlk l h2).resolve_left hlt
          exact ⟨pre.length, hn, by simp, by rw [hx, hnew, Option.map_some, Option.map_some, hxn]⟩
    rw [cseLoop]
    cases hfind : exMap.find? fun p => !p.1.blt (renameIn ren (.fn f args)) &&
        !(renameIn ren (.fn f args)).blt p.1 with
    | some p =>
      obtain ⟨hp, hbeq⟩ := find_equiv hfind
      obtain ⟨hp1, hp2⟩ := h.map p hp
      have hlt : p.2 < ret.length := (List.getElem?_eq_some_iff.1 hp2).1
      obtain ⟨g, bs, he, hg, hb⟩ := h.wf.elem p.2 p.1 hp2 hp1
      have hx := expand_elem h.wf hp2 hp1
      have hnp : nrm p.1 = nrm (renameIn ren (.fn f args)) := by
        rw [he, hfn] at hbeq ⊢
        exact nrm_node_of_beq hP (hS _ _ hg) (hS _ _ hf) hb hbeq
      have := ih (pre ++ [.fn f args]) ret exMap ((uname pre.length, uname p.2) :: ren) hw'
        (by simp; omega) (common ret exMap p.2 _ hlt (fun l hl => .inl hl) h.wf ⟨[], by simp⟩
          (by have := h.len; omega) h.map hx ?_)
      · simpa [hfind] using this
      · rw [← hval]
        exact nrm_subst _ _ _ (fun s => rfl) hnp
    | none =>
      have hwf : DcW S n (ret ++ [renameIn ren (.fn f args)]) := by
        rw [hfn]
        refine h.wf.snoc (by simpa using hf) fun a' ha' => ?_
        obtain ⟨a, hm, rfl⟩ := List.mem_map.1 ha'
        exact (hargs a hm).1
      have := ih (pre ++ [.fn f args]) (ret ++ [renameIn ren (.fn f args)])
        ((renameIn ren (.fn f args), ret.length) :: exMap) ((uname pre.length, uname ret.length) :: ren)
        hw' (by simp; omega)
        (common _ _ ret.length _ (by simp) (fun l hl => by simp at hl; omega) hwf ⟨_, rfl⟩ (by simp; exact h.len) ?_ (expand_snoc hnr _) hval)
      · simpa [hfind] using this
      · intro p hp
        rcases List.mem_cons.1 hp with rfl | hp
        · exact ⟨hnr, by simp⟩
        · obtain ⟨h1, h2⟩ := h.map p hp
          exact ⟨h1, by rw [List.getElem?_append_left (List.getElem?_eq_some_iff.1 h2).1]; exact h2⟩

/-- An output in terms of the inputs, up to the equality of expressions. -/
def OutNrm (ins dc : List (Expr ℝ)) (o e : Expr ℝ) : Prop :=
  LeafOk dc.length o ∧ nrm (subsAll (expand ins.length dc) o) = nrm (subsAll ins e)

theorem cse_expand {S : Fn ℝ → Nat → Prop} {P : Fn ℝ → Prop} (hP : NormSound P) (hS : ∀ f k, S f k → P f)
    {ins d outs es : List (Expr ℝ)} (hw : DcW S ins.length (ins ++ d))
    (ho : List.Forall₂ (OutDef ins (ins ++ d)) outs es) :
    ∃ d' outs', cse ins.length es.length ((ins ++ d) ++ outs) = (ins ++ d') ++ outs' ∧
      DcW S ins.length (ins ++ d') ∧ (ins ++ d').length ≤ (ins ++ d).length ∧
      (∀ l, ins.length ≤ l → l < (ins ++ d').length → ∃ j, ins.length ≤ j ∧ j < (ins ++ d).length ∧
        (expand ins.length (ins ++ d'))[l]?.map nrm = (expand ins.length (ins ++ d))[j]?.map nrm) ∧
      List.Forall₂ (OutNrm ins (ins ++ d')) outs' es := by
  have hl : outs.length = es.length := ho.length_eq
  have htot : ((ins ++ d) ++ outs).length - es.length = (ins ++ d).length := by simp [hl]; omega
  have hmid : dcMid ins.length es.length ((ins ++ d) ++ outs) = d := by
    rw [dcMid, htot, List.append_assoc, List.drop_left' rfl, List.length_append,
      show ins.length + d.length - ins.length = d.length from by omega, List.take_left' rfl]
  have houts : dcOuts es.length ((ins ++ d) ++ outs) = outs := by
    rw [dcOuts, htot, List.drop_left' rfl]
  have htake : ((ins ++ d) ++ outs).take ins.length = ins := by
    rw [List.append_assoc, List.take_left' rfl]
  have hinit : CseX S ins.length ins ins [] [] := by
    refine ⟨⟨le_refl _, fun i e he hi => ?_⟩, le_refl _, rfl, by simp, fun j hj => ⟨j, hj, by simp [renName], rfl⟩,
      fun l h1 h2 => by omega⟩
    rw [List.getElem?_eq_none hi] at he; cases he
  obtain ⟨m, hc⟩ := cseLoop_expand hP hS d ins ins [] [] hw (le_refl _) hinit
  rw [cse, hmid, houts, htake]
  generalize cseLoop ins.length ins [] [] d = r at hc ⊢
  obtain ⟨ret, ren⟩ := r
  simp only at hc ⊢
  have hpre : ret.take ins.length = ins := by rw [hc.pre_eq]; simp
  obtain ⟨d', rfl⟩ : ∃ d', ret = ins ++ d' := ⟨ret.drop ins.length, by
    conv_lhs => rw [← List.take_append_drop ins.length ret, hpre]⟩
  refine ⟨d', outs.map (renameIn ren), rfl, hc.wf, hc.len, hc.orig, ?_⟩
  rw [List.forall₂_map_left_iff]
  refine ho.imp fun o e h => ?_
  obtain ⟨h1, h2⟩ := leaf_rename h.1 expand_length hc.rens
  exact ⟨h1, by rw [h2, h.2]⟩

end Heyoka.AD

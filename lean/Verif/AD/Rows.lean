import Verif.AD.Expand

/-!
# The adjoints and the dependencies

What the containers `adj`, `dep`, `revdep` and `subs_map` contain for a well-formed decomposition.
-/

set_option linter.unusedSectionVars false

namespace Heyoka.AD

open Heyoka.Sym

section
variable {K : Type}

theorem rowsFrom_ok {row : Nat → Expr K → Res (Row K)} {es : List (Expr K)} : ∀ {i : Nat} {rs : List (Row K)},
    rowsFrom row i es = .ok rs → rs.length = es.length ∧
      ∀ (j : Nat) (e : Expr K), es[j]? = some e → ∃ r, rs[j]? = some r ∧ row (i + j) e = .ok r := by
  induction es with
  | nil =>
    intro i rs h
    rw [rowsFrom] at h
    cases h
    exact ⟨rfl, fun j e he => by simp at he⟩
  | cons e es ih =>
    intro i rs h
    rw [rowsFrom] at h
    cases h1 : row i e with
    | throw => rw [h1] at h; cases h
    | ub => rw [h1] at h; cases h
    | ok r =>
      rw [h1, Res.bind_ok] at h
      cases h2 : rowsFrom row (i + 1) es with
      | throw => rw [h2] at h; cases h
      | ub => rw [h2] at h; cases h
      | ok rs' =>
        rw [h2, Res.bind_ok] at h
        cases h
        obtain ⟨hl, hr⟩ := ih h2
        refine ⟨by simp [hl], fun j a ha => ?_⟩
        cases j with
        | zero => simp at ha; subst ha; exact ⟨r, rfl, h1⟩
        | succ j =>
          obtain ⟨r', h3, h4⟩ := hr j a (by simpa using ha)
          exact ⟨r', by simpa using h3, by rw [← h4]; congr 1; omega⟩

theorem rowsFrom_total {row : Nat → Expr K → Res (Row K)} {es : List (Expr K)} : ∀ {i : Nat},
    (∀ (j : Nat) (e : Expr K), es[j]? = some e → ∃ r, row (i + j) e = .ok r) → ∃ rs, rowsFrom row i es = .ok rs := by
  induction es with
  | nil => intro i _; exact ⟨[], rfl⟩
  | cons e es ih =>
    intro i h
    obtain ⟨r, hr⟩ := h 0 e rfl
    obtain ⟨rs, hrs⟩ := ih (i := i + 1) fun j a ha => by
      obtain ⟨r', h'⟩ := h (j + 1) a (by simpa using ha)
      exact ⟨r', by rw [← h']; congr 1; omega⟩
    rw [Nat.add_zero] at hr
    exact ⟨r :: rs, by rw [rowsFrom, hr, Res.bind_ok, hrs, Res.bind_ok]⟩

theorem dcMid_append {n : Nat} {c outs : List (Expr K)} (h : n ≤ c.length) : dcMid n outs.length (c ++ outs) = c.drop n := by
  unfold dcMid
  rw [List.drop_append_of_le_length h, List.take_append_of_le_length (by simp)]
  rw [List.take_of_length_le]
  simp

theorem dcOuts_append {c outs : List (Expr K)} : dcOuts outs.length (c ++ outs) = outs := by
  unfold dcOuts
  simp

theorem mem_revdep {rows : List (Row K)} {j k : Nat} : k ∈ revdep rows j ↔ j ∈ dep rows k := by
  unfold revdep dep
  rw [List.mem_map]
  constructor
  · rintro ⟨⟨r, i⟩, hp, rfl⟩
    rw [List.mem_filter] at hp
    obtain ⟨h1, h2⟩ := hp
    obtain ⟨m, hm⟩ := List.mem_iff_getElem?.1 h1
    rw [List.getElem?_zipIdx, Option.map_eq_some_iff] at hm
    obtain ⟨a, ha, he⟩ := hm
    simp only [Prod.mk.injEq, Nat.zero_add] at he
    obtain ⟨rfl, rfl⟩ := he
    rw [ha, Option.getD_some, List.mem_map]
    rw [List.any_eq_true] at h2
    obtain ⟨p, hp, hb⟩ := h2
    exact ⟨p, hp, by simpa using hb⟩
  · intro h
    cases hr : rows[k]? with
    | none => rw [hr] at h; simp at h
    | some r =>
      rw [hr, Option.getD_some, List.mem_map] at h
      obtain ⟨p, hp, rfl⟩ := h
      refine ⟨(r, k), List.mem_filter.2 ⟨?_, ?_⟩, rfl⟩
      · refine List.mem_iff_getElem?.2 ⟨k, ?_⟩
        rw [List.getElem?_zipIdx, hr]; simp
      · simp only [List.any_eq_true]
        exact ⟨p, hp, by simp⟩

theorem revdep_nodup (rows : List (Row K)) (j : Nat) : (revdep rows j).Nodup := by
  unfold revdep
  refine List.Nodup.sublist (List.Sublist.map Prod.snd List.filter_sublist) ?_
  rw [List.zipIdx_map_snd]
  exact List.nodup_range'

theorem mem_argVars {args : List (Expr K)} {s : String} : s ∈ args.filterMap leafVar ↔ Expr.var s ∈ args := by
  rw [List.mem_filterMap]
  constructor
  · rintro ⟨a, ha, h⟩
    cases a <;> simp [leafVar] at h
    exact h ▸ ha
  · intro h
    exact ⟨_, h, rfl⟩

variable [Field K] [LinearOrder K] [FloorRing K] [Interp K] [FmtName K]

theorem entries_ok {n i : Nat} {args gs : List (Expr K)} {ss : List String} : ∀ {r : Row K},
    (∀ s ∈ ss, ∃ j, s = uname j) → entries n i args gs ss = .ok r →
      List.Forall₂ (fun s p => s = uname p.1 ∧ p.2 = sumE (collect s args gs)) ss r := by
  induction ss with
  | nil => intro r _ h; rw [entries] at h; cases h; exact .nil
  | cons s ss ih =>
    intro r hs h
    obtain ⟨j, rfl⟩ := hs s List.mem_cons_self
    rw [entries, unameToIndex_uname] at h
    by_cases h1 : j < 2 ^ 32
    · rw [if_pos h1, Res.bind_ok] at h
      split_ifs at h with h2 h3
      cases h4 : entries n i args gs ss with
      | throw => rw [h4] at h; cases h
      | ub => rw [h4] at h; cases h
      | ok r' =>
        rw [h4, Res.bind_ok] at h
        cases h
        exact .cons ⟨rfl, rfl⟩ (ih (fun s hs' => hs s (List.mem_cons_of_mem _ hs')) h4)
    · rw [if_neg h1] at h; cases h

theorem entries_total {n i : Nat} {args gs : List (Expr K)} {ss : List String} (hi : i < 2 ^ 32) (hn : n ≤ 2 ^ 32)
    (hs : ∀ s ∈ ss, ∃ j, j < n ∧ s = uname j) : ∃ r, entries n i args gs ss = .ok r := by
  induction ss with
  | nil => exact ⟨[], rfl⟩
  | cons s ss ih =>
    obtain ⟨j, hj, rfl⟩ := hs s List.mem_cons_self
    obtain ⟨r, hr⟩ := ih fun s hs' => hs s (List.mem_cons_of_mem _ hs')
    exact ⟨_, by rw [entries, unameToIndex_uname, if_pos (by omega), Res.bind_ok, if_neg (by omega), if_neg (by omega),
      hr, Res.bind_ok]⟩

/-- The contents of the containers for the element `.fn f args` with the index `k`. -/
structure RowOk (rows : List (Row K)) (k : Nat) (f : Fn K) (args gs : List (Expr K)) : Prop where
  grad : gradient f args = .ok gs
  len : gs.length = args.length
  nodup : (dep rows k).Nodup
  mem : ∀ l, l ∈ dep rows k ↔ Expr.var (uname l) ∈ args
  find : ∀ l ∈ dep rows k, adjFind rows k l = some (sumE (collect (uname l) args gs))

theorem rowOk_of {rows : List (Row K)} {k n : Nat} {f : Fn K} {args : List (Expr K)} {r : Row K} {i : Nat}
    (hr : rows[k]? = some r) (ha : ∀ a ∈ args, LeafOk i a) (h : midRow n k (.fn f args) = .ok r) :
    ∃ gs, RowOk rows k f args gs := by
  rw [midRow] at h
  cases hg : gradient f args with
  | throw => rw [hg] at h; cases h
  | ub => rw [hg] at h; cases h
  | ok gs =>
    rw [hg, Res.bind_ok] at h
    split_ifs at h with h1 h2
    push Not at h1
    have hss : ∀ s ∈ sortedSet (args.filterMap leafVar), ∃ j, s = uname j := by
      intro s hs
      rw [mem_sortedSet, mem_argVars] at hs
      obtain ⟨j, -, hj⟩ := ha _ hs
      exact ⟨j, hj⟩
    have hF := entries_ok hss h
    have hd : dep rows k = r.map (·.1) := by unfold dep; rw [hr]; rfl
    have hkeys : sortedSet (args.filterMap leafVar) = (r.map (·.1)).map uname := by
      clear * - hF
      generalize sortedSet (args.filterMap leafVar) = ss at hF
      induction hF with
      | nil => rfl
      | cons h _ ih => rw [List.map_cons, List.map_cons, ← h.1, ← ih]
    have hnd : (r.map (·.1)).Nodup := by
      have : (sortedSet (args.filterMap leafVar)).Nodup := (sortedSet_pairwise _).imp fun h => ne_of_lt h
      rw [hkeys] at this
      exact this.of_map
    refine ⟨gs, hg, h1, hd ▸ hnd, fun l => ?_, fun l hl => ?_⟩
    · rw [hd, ← mem_argVars, ← mem_sortedSet (l := args.filterMap leafVar), hkeys, List.mem_map (f := uname)]
      constructor
      · intro h; exact ⟨l, h, rfl⟩
      · rintro ⟨m, hm, he⟩; exact uname_inj he ▸ hm
    · rw [hd] at hl
      obtain ⟨p, hp, rfl⟩ := List.mem_map.1 hl
      unfold adjFind
      rw [hr, Option.getD_some]
      refine lookup_nodup hnd ?_
      have : p.2 = sumE (collect (uname p.1) args gs) := by
        clear * - hF hp
        generalize sortedSet (args.filterMap leafVar) = ss at hF
        induction hF with
        | nil => cases hp
        | cons h _ ih =>
          rcases List.mem_cons.1 hp with rfl | hp
          · rw [← h.1]; exact h.2
          · exact ih hp
      rw [← this]
      exact hp

theorem rows_ok {S : Fn K → Nat → Prop} {n : Nat} {c outs : List (Expr K)} {rows : List (Row K)} (hw : DcW S n c)
    (ho : ∀ o ∈ outs, LeafOk c.length o) (h : adjRows n outs.length (c ++ outs) = .ok rows) :
    rows.length = c.length + outs.length ∧
    (∀ k, k < n → dep rows k = []) ∧
    (∀ (k : Nat) (f : Fn K) (args : List (Expr K)), n ≤ k → c[k]? = some (.fn f args) → ∃ gs, RowOk rows k f args gs) ∧
    (∀ (j l : Nat), outs[j]? = some (.var (uname l)) →
      dep rows (c.length + j) = [l] ∧ adjFind rows (c.length + j) l = some (.dbl 1)) ∧
    (∀ (j : Nat) (m : Num K), outs[j]? = some (.num m) → dep rows (c.length + j) = []) := by
  unfold adjRows at h
  rw [dcMid_append hw.len, dcOuts_append] at h
  cases h1 : rowsFrom (midRow (c ++ outs).length) n (c.drop n) with
  | throw => rw [h1] at h; cases h
  | ub => rw [h1] at h; cases h
  | ok m =>
    rw [h1, Res.bind_ok] at h
    cases h2 : rowsFrom (outRow (c ++ outs).length) ((c ++ outs).length - outs.length) outs with
    | throw => rw [h2] at h; cases h
    | ub => rw [h2] at h; cases h
    | ok o =>
      rw [h2, Res.bind_ok] at h
      cases h
      obtain ⟨hm, hm'⟩ := rowsFrom_ok h1
      obtain ⟨ho1, ho'⟩ := rowsFrom_ok h2
      have hlen := hw.len
      rw [List.length_drop] at hm
      have hout : ∀ j : Nat, (List.replicate n [] ++ m ++ o)[c.length + j]? = o[j]? := by
        intro j
        rw [List.getElem?_append_right (by simp; omega)]
        congr 1
        simp; omega
      have hmid : ∀ k : Nat, n ≤ k → k < c.length → (List.replicate n [] ++ m ++ o)[k]? = m[k - n]? := by
        intro k h1 h2
        rw [List.append_assoc, List.getElem?_append_right (by simp; omega), List.getElem?_append_left (by simp; omega)]
        simp
      refine ⟨by simp; omega, fun k hk => ?_, fun k f args hk hc => ?_, fun j l hj => ?_, fun j mm hj => ?_⟩
      · unfold dep
        rw [List.append_assoc, List.getElem?_append_left (by simp; omega)]
        simp [hk]
      · obtain ⟨hkc, -⟩ := List.getElem?_eq_some_iff.1 hc
        obtain ⟨r, hr, hrow⟩ := hm' (k - n) (.fn f args) (by rw [List.getElem?_drop]; rw [← hc]; congr 1; omega)
        rw [show n + (k - n) = k by omega] at hrow
        obtain ⟨f', args', he, -, ha⟩ := hw.elem k _ hc hk
        cases he
        exact rowOk_of ((hmid k hk hkc).trans hr) ha hrow
      · obtain ⟨r, hr, hrow⟩ := ho' j _ hj
        obtain ⟨l', hl', he⟩ := ho _ (List.mem_of_getElem? hj)
        rw [outRow, unameToIndex_uname] at hrow
        by_cases h3 : l < 2 ^ 32
        · rw [if_pos h3, Res.bind_ok] at hrow
          split_ifs at hrow
          cases hrow
          unfold dep adjFind
          rw [hout, hr]
          simp
        · rw [if_neg h3] at hrow; cases hrow
      · obtain ⟨r, hr, hrow⟩ := ho' j _ hj
        rw [outRow] at hrow
        cases hrow
        unfold dep
        rw [hout, hr]
        rfl

theorem adjRows_total {S : Fn K → Nat → Prop} (hS : ∀ f k, S f k → hasGrad f k) {n : Nat} {c outs : List (Expr K)}
    (hw : DcW S n c) (ho : ∀ o ∈ outs, LeafOk c.length o) (hl : c.length + outs.length ≤ 2 ^ 32) :
    ∃ rows, adjRows n outs.length (c ++ outs) = .ok rows := by
  have hlen := hw.len
  obtain ⟨m, hm⟩ : ∃ m, rowsFrom (midRow (c ++ outs).length) n (c.drop n) = .ok m := by
    refine rowsFrom_total fun j e he => ?_
    rw [List.getElem?_drop] at he
    obtain ⟨hlt, -⟩ := List.getElem?_eq_some_iff.1 he
    obtain ⟨f, args, rfl, hf, ha⟩ := hw.elem _ _ he (by omega)
    obtain ⟨gs, hg, hgl⟩ := gradient_total (hS _ _ hf)
    rw [midRow, hg, Res.bind_ok, if_neg (by simp [hgl]), if_pos]
    · refine entries_total (by omega) (by simpa using hl) fun s hs => ?_
      rw [mem_sortedSet, mem_argVars] at hs
      obtain ⟨l, hl', he⟩ := ha _ hs
      exact ⟨l, by simp; omega, he⟩
    · rw [List.all_eq_true]
      intro a h
      have := ha a h
      cases a <;> first | rfl | exact this.elim
  obtain ⟨o, ho'⟩ : ∃ o, rowsFrom (outRow (c ++ outs).length) ((c ++ outs).length - outs.length) outs = .ok o := by
    refine rowsFrom_total fun j e he => ?_
    obtain ⟨hlt, -⟩ := List.getElem?_eq_some_iff.1 he
    have := ho e (List.mem_of_getElem? he)
    cases e with
    | num m => exact ⟨[], rfl⟩
    | par i => exact this.elim
    | fn f as => exact this.elim
    | var s =>
      obtain ⟨l, hl', rfl⟩ := this
      refine ⟨[(l, .dbl 1)], ?_⟩
      rw [outRow, unameToIndex_uname, if_pos (by omega), Res.bind_ok, if_neg (by simp; omega), if_neg (by simp; omega)]
  exact ⟨_, by unfold adjRows; rw [dcMid_append hw.len, dcOuts_append, hm, Res.bind_ok, ho', Res.bind_ok]⟩

theorem expandOuts_ok (outs : List (Expr K)) : ∀ (X Y : List (Expr K)), (∀ o ∈ outs, LeafOk X.length o) →
    expandOuts (X ++ Y) outs = .ok (X ++ Y ++ outs.map (subsAll X)) := by
  induction outs with
  | nil => intro X Y _; simp [expandOuts]
  | cons o outs ih =>
    intro X Y h
    have ho := h o List.mem_cons_self
    have ih := ih X (Y ++ [subsAll X o]) fun a ha => h a (List.mem_cons_of_mem _ ha)
    rw [List.append_assoc] at ih
    cases o with
    | num m =>
      rw [expandOuts]
      · rw [subsAll_num] at ih
        rw [List.append_assoc, ih]; simp [subsAll_num]
      · simp
    | var s =>
      obtain ⟨j, hj, rfl⟩ := ho
      have hx : X[j]? = some X[j] := List.getElem?_eq_getElem hj
      rw [expandOuts, subsLook_uname, List.getElem?_append_left hj, hx]
      rw [subsAll_uname hx] at ih
      simp only
      rw [List.append_assoc, ih]
      simp [subsAll_uname hx]
    | par i => exact ho.elim
    | fn f as => exact ho.elim

theorem subsMap_ok {S : Fn K → Nat → Prop} {n : Nat} {c outs : List (Expr K)} (hw : DcW S n c)
    (ho : ∀ o ∈ outs, LeafOk c.length o) :
    subsMap n outs.length (c ++ outs) = .ok (expand n c ++ outs.map (subsAll (expand n c))) := by
  unfold subsMap
  rw [dcMid_append hw.len, dcOuts_append, List.take_append_of_le_length hw.len]
  have := expandOuts_ok outs (expand n c) [] (by rwa [expand_length])
  rw [List.append_nil] at this
  exact this

end

end Heyoka.AD

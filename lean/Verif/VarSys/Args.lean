import Verif.VarSys.Eqs
import Verif.Props.VarIcs

/-!
# The names and arguments of variational systems
-/

set_option linter.unusedSectionVars false

namespace Heyoka.Sym

open Heyoka.AD Heyoka.Dtens
open Heyoka.EopSw (decimal)

/-! ### The names of the variables -/

theorem fmtPair_inj {p q : Nat × Nat} {l l' : List Char} (h : fmtPair p ++ l = fmtPair q ++ l') : p = q ∧ l = l' := by
  obtain ⟨a, b⟩ := p
  obtain ⟨c, d⟩ := q
  simp only [fmtPair, List.cons_append, List.append_assoc, List.cons.injEq, true_and, List.nil_append] at h
  obtain ⟨h1, h2⟩ := decimal_sep (by decide) h
  obtain ⟨h3, h4⟩ := decimal_sep (by decide) (List.cons.inj h2).2
  exact ⟨by rw [h1, h3], h4⟩

theorem fmtRest_inj : ∀ {α β : List (Nat × Nat)} {l l' : List Char}, fmtRest α ++ ']' :: l = fmtRest β ++ ']' :: l' → α = β ∧ l = l'
  | [], [], l, l', h => by simpa [fmtRest] using h
  | [], q :: β, l, l', h => by simp [fmtRest] at h
  | p :: α, [], l, l', h => by simp [fmtRest] at h
  | p :: α, q :: β, l, l', h => by
    simp only [fmtRest, List.cons_append, List.append_assoc, List.cons.injEq, true_and] at h
    obtain ⟨h1, h2⟩ := fmtPair_inj h
    obtain ⟨h3, h4⟩ := fmtRest_inj h2
    exact ⟨by rw [h1, h3], h4⟩

theorem fmtIdx_inj {α β : List (Nat × Nat)} {l l' : List Char} (h : fmtIdx α ++ l = fmtIdx β ++ l') : α = β ∧ l = l' := by
  cases α with
  | nil =>
    cases β with
    | nil => simpa [fmtIdx] using h
    | cons q β => simp [fmtIdx, fmtPair] at h
  | cons p α =>
    cases β with
    | nil => simp [fmtIdx, fmtPair] at h
    | cons q β =>
      simp only [fmtIdx, List.cons_append, List.append_assoc, List.cons.injEq, true_and, List.nil_append] at h
      obtain ⟨h1, h2⟩ := fmtPair_inj h
      obtain ⟨h3, h4⟩ := fmtRest_inj h2
      exact ⟨by rw [h1, h3], h4⟩

/-- The variables for the derivatives are different from each other. -/
theorem varName_inj {s t : String} {α β : List (Nat × Nat)} (h : varName s α = varName t β) : s = t ∧ α = β := by
  have := congrArg String.toList h
  simp only [varName, String.toList_ofList, List.cons.injEq, true_and] at this
  obtain ⟨h1, h2⟩ := fmtIdx_inj this
  exact ⟨String.toList_inj.1 h2, h1⟩

theorem varName_partial (s : String) (α : List (Nat × Nat)) : startsPartial (varName s α) = true := by
  simp [startsPartial, varName]

theorem lhsName_inj {s t : String} {α β : List (Nat × Nat)} (hs : startsPartial s = false) (ht : startsPartial t = false)
    (h : lhsName s α = lhsName t β) : s = t ∧ α = β := by
  unfold lhsName at h
  cases α with
  | nil =>
    cases β with
    | nil => exact ⟨by simpa using h, rfl⟩
    | cons q β =>
      simp only [List.isEmpty_nil, if_true, List.isEmpty_cons, Bool.false_eq_true, if_false] at h
      rw [h, varName_partial] at hs
      cases hs
  | cons p α =>
    cases β with
    | nil =>
      simp only [List.isEmpty_nil, if_true, List.isEmpty_cons, Bool.false_eq_true, if_false] at h
      rw [← h, varName_partial] at ht
      cases ht
    | cons q β =>
      simp only [List.isEmpty_cons, Bool.false_eq_true, if_false] at h
      exact varName_inj h

theorem lhsName_notReserved {s : String} {α : List (Nat × Nat)} (hs : ∀ r : List Char, s.toList ≠ '_' :: '_' :: r) (r : List Char) :
    (lhsName s α).toList ≠ '_' :: '_' :: r := by
  unfold lhsName
  cases α with
  | nil => simpa using hs r
  | cons p α =>
    simp [varName]

theorem icName_inj {s t : String} (h : icName s = icName t) : s = t := by
  have := congrArg String.toList h
  simp only [icName, String.toList_ofList, List.cons.injEq, true_and] at this
  exact String.toList_inj.1 (List.append_cancel_right this)

theorem icName_ne_itName {s : String} (hs : ∀ r : List Char, s.toList ≠ '_' :: '_' :: r) : icName s ≠ itName := by
  intro h
  have := congrArg String.toList h
  simp only [icName, itName, String.toList_ofList, List.cons.injEq, true_and] at this
  have h2 : s.toList ++ ['_', '0'] = ['_', '_', 't'] ++ ['_', '0'] := this
  exact hs _ (List.append_cancel_right h2)

/-! ### The arguments -/

section
variable {K : Type} [Field K] [LinearOrder K] [FmtName K] {names : List String}

/-- An argument used for the differentiation and the original one. -/
def VArgOk (names : List String) (p : DVar × Expr K) : Prop :=
  (∃ s ∈ names, p = (.var (icName s), .var s)) ∨ (∃ i, p = (.par i, .par i)) ∨ p = (.var itName, .fn .time [])

theorem VArgOk.inj {p q : DVar × Expr K} (hp : VArgOk names p) (hq : VArgOk names q) (h : p.2 = q.2) : p.1 = q.1 := by
  rcases hp with ⟨s, -, rfl⟩ | ⟨i, rfl⟩ | rfl <;> rcases hq with ⟨t, -, rfl⟩ | ⟨j, rfl⟩ | rfl <;> simp_all

theorem args_snd_nodup {l : List (DVar × Expr K)} (h : ∀ p ∈ l, VArgOk names p) (hn : (l.map Prod.fst).Nodup) : (l.map Prod.snd).Nodup := by
  induction l with
  | nil => exact .nil
  | cons p l ih =>
    rw [List.map_cons, List.nodup_cons] at hn ⊢
    refine ⟨fun hm => hn.1 ?_, ih (fun q hq => h q (List.mem_cons_of_mem _ hq)) hn.2⟩
    obtain ⟨q, hq, he⟩ := List.mem_map.1 hm
    rw [← (h q (List.mem_cons_of_mem _ hq)).inj (h p List.mem_cons_self) he]
    exact List.mem_map_of_mem hq

theorem enumArgs_ok (rhs : List (Expr K)) (n : Nat) : ∀ p ∈ enumArgs names rhs n, VArgOk names p := by
  intro p hp
  unfold enumArgs at hp
  rcases List.mem_append.1 hp with hp | hp
  · rcases List.mem_append.1 hp with hp | hp
    · split_ifs at hp
      · obtain ⟨s, hs, rfl⟩ := List.mem_map.1 hp
        exact .inl ⟨s, hs, rfl⟩
      · cases hp
    · split_ifs at hp
      · obtain ⟨i, -, rfl⟩ := List.mem_map.1 hp
        exact .inr (.inl ⟨i, rfl⟩)
      · cases hp
  · split_ifs at hp
    · rw [List.mem_singleton] at hp
      exact .inr (.inr hp)
    · cases hp

theorem enumArgs_nodup (hn : names.Nodup) (hr : ∀ s ∈ names, ∀ r : List Char, s.toList ≠ '_' :: '_' :: r) (rhs : List (Expr K)) (n : Nat) :
    ((enumArgs names rhs n).map Prod.fst).Nodup := by
  have h1 : (names.map fun s => DVar.var (icName s)).Nodup :=
    hn.map fun s t h => icName_inj (DVar.var.inj h)
  have h2 : ((inPars rhs).map DVar.par).Nodup := by
    refine List.Nodup.map (fun i j h => DVar.par.inj h) ?_
    exact (sortedSet_pairwise _).imp fun h => ne_of_lt h
  unfold enumArgs
  rw [List.map_append, List.map_append, List.nodup_append, List.nodup_append]
  refine ⟨⟨?_, ?_, ?_⟩, ?_, ?_⟩
  · split_ifs
    · rw [List.map_map]; exact h1
    · exact .nil
  · split_ifs
    · rw [List.map_map]; exact h2
    · exact .nil
  · intro a ha b hb
    split_ifs at ha hb
    · rw [List.map_map] at ha hb
      obtain ⟨s, -, rfl⟩ := List.mem_map.1 ha
      obtain ⟨i, -, rfl⟩ := List.mem_map.1 hb
      simp
    all_goals first | cases ha | cases hb
  · split_ifs
    · simp
    · exact .nil
  · intro a ha b hb
    split_ifs at hb
    · rw [List.map_cons, List.map_nil, List.mem_singleton] at hb
      subst hb
      rcases List.mem_append.1 ha with ha | ha
      · split_ifs at ha
        · rw [List.map_map] at ha
          obtain ⟨s, hs, rfl⟩ := List.mem_map.1 ha
          simpa using icName_ne_itName (hr s hs)
        · cases ha
      · split_ifs at ha
        · rw [List.map_map] at ha
          obtain ⟨i, -, rfl⟩ := List.mem_map.1 ha
          simp
        · cases ha
    · cases hb

theorem listArgs_snd {l : List (Expr K)} : ∀ {r : List (DVar × Expr K)}, listArgs names l = .ok r → r.map Prod.snd = l := by
  induction l with
  | nil => intro r h; cases h; rfl
  | cons e es ih =>
    intro r h
    rw [listArgs] at h
    cases ha : listArg names e with
    | throw => rw [ha] at h; cases h
    | ub => rw [ha] at h; cases h
    | ok a =>
      rw [ha, Res.bind_ok] at h
      cases hr : listArgs names es with
      | throw => rw [hr] at h; cases h
      | ub => rw [hr] at h; cases h
      | ok r' =>
        rw [hr, Res.bind_ok] at h
        cases h
        rw [List.map_cons, ih hr]

theorem listArg_ok {e : Expr K} (ht : e.beq (.fn .time []) = true → e = .fn .time []) {a : DVar} (h : listArg names e = .ok a) :
    VArgOk names (a, e) := by
  cases e with
  | var s =>
    rw [listArg] at h
    split_ifs at h with hs
    cases h
    exact .inl ⟨s, by simpa using hs, rfl⟩
  | par i => cases h; exact .inr (.inl ⟨i, rfl⟩)
  | num n =>
    rw [listArg] at h
    · split_ifs at h with hs
      · cases hs
    · simp
    · simp
  | fn f as =>
    rw [listArg] at h
    · split_ifs at h with hs
      cases h
      rw [ht hs]
      exact .inr (.inr rfl)
    · simp
    · simp

theorem listArgs_ok {l : List (Expr K)} (ht : ∀ e ∈ l, e.beq (.fn .time []) = true → e = .fn .time []) :
    ∀ {r : List (DVar × Expr K)}, listArgs names l = .ok r → ∀ p ∈ r, VArgOk names p := by
  induction l with
  | nil => intro r h; cases h; simp
  | cons e es ih =>
    intro r h
    rw [listArgs] at h
    cases ha : listArg names e with
    | throw => rw [ha] at h; cases h
    | ub => rw [ha] at h; cases h
    | ok a =>
      rw [ha, Res.bind_ok] at h
      cases hr : listArgs names es with
      | throw => rw [hr] at h; cases h
      | ub => rw [hr] at h; cases h
      | ok r' =>
        rw [hr, Res.bind_ok] at h
        cases h
        intro p hp
        rcases List.mem_cons.1 hp with rfl | hp
        · exact listArg_ok (ht e List.mem_cons_self) ha
        · exact ih (fun e he => ht e (List.mem_cons_of_mem _ he)) hr p hp

/-- The variational arguments requested by the user: with an enumerator, the state variables, the parameters of the system
and the time, as the bits of the enumerator say. -/
def wantedArgs (names : List String) (rhs : List (Expr K)) : VArgs K → List (Expr K)
  | .enum n => (if n.testBit 0 then names.map .var else []) ++ (if n.testBit 1 then (inPars rhs).map .par else []) ++
      (if n.testBit 2 then [.fn .time []] else [])
  | .list l => l

theorem enumArgs_snd (rhs : List (Expr K)) (n : Nat) (hn : n ≤ 7) :
    (enumArgs names rhs n).map Prod.snd = wantedArgs names rhs (.enum n) := by
  have h : (n &&& 1 ≠ 0 ↔ n.testBit 0 = true) ∧ (n &&& 2 ≠ 0 ↔ n.testBit 1 = true) ∧ (n &&& 4 ≠ 0 ↔ n.testBit 2 = true) := by
    interval_cases n <;> decide
  unfold enumArgs wantedArgs
  simp only [h.1, h.2.1, h.2.2, List.map_append]
  congr 1
  · congr 1
    · split_ifs <;> simp
    · split_ifs <;> simp
  · split_ifs <;> simp

/-- The time in an explicit list is the time of the library. -/
def VTimeOk : VArgs K → Prop
  | .enum _ => True
  | .list l => ∀ e ∈ l, e.beq (.fn .time []) = true → e = .fn .time []

theorem vargsOf_ok (hn : names.Nodup) (hr : ∀ s ∈ names, ∀ r : List Char, s.toList ≠ '_' :: '_' :: r) {rhs : List (Expr K)}
    {va : VArgs K} (ht : VTimeOk va) {l : List (DVar × Expr K)} (h : vargsOf names rhs va = .ok l) :
    (∀ p ∈ l, VArgOk names p) ∧ (l.map Prod.fst).Nodup ∧ l.map Prod.snd = wantedArgs names rhs va := by
  cases va with
  | enum n =>
    rw [vargsOf] at h
    split_ifs at h with h1
    cases h
    exact ⟨enumArgs_ok rhs n, enumArgs_nodup hn hr rhs n, enumArgs_snd rhs n (by omega)⟩
  | list as =>
    cases as with
    | nil => cases h
    | cons e es =>
      rw [vargsOf] at h
      cases hl : listArgs names (e :: es) with
      | throw => rw [hl] at h; cases h
      | ub => rw [hl] at h; cases h
      | ok r =>
        rw [hl, Res.bind_ok] at h
        split_ifs at h with h1
        cases h
        exact ⟨listArgs_ok ht hl, h1, listArgs_snd hl⟩

end

/-! ### The first entries of a tensor -/

theorem filter_prefix {α : Type} {r : α → α → Prop} {p : α → Bool} (hp : ∀ a b, r a b → p b = true → p a = true) {l : List α}
    (h : l.Pairwise r) : l = l.filter p ++ l.filter fun a => !p a := by
  induction l with
  | nil => rfl
  | cons a l ih =>
    rw [List.pairwise_cons] at h
    cases ha : p a with
    | true => rw [List.filter_cons, ha, if_pos rfl, List.filter_cons, ha, if_neg (by simp), List.cons_append, ← ih h.2]
    | false =>
      have hall : ∀ b ∈ l, p b = false := by
        intro b hb
        cases hbp : p b with
        | false => rfl
        | true => rw [hp a b (h.1 b hb) hbp] at ha; cases ha
      rw [List.filter_cons, ha, if_neg (by simp), List.filter_cons, ha, if_pos (by simp)]
      have h1 : l.filter p = [] := List.filter_eq_nil_iff.2 fun b hb => by simp [hall b hb]
      have h2 : (l.filter fun a => !p a) = l := List.filter_eq_self.2 fun b hb => by simp [hall b hb]
      rw [h1, h2, List.nil_append]

/-- The derivatives of order zero come first. -/
theorem complete_zero {α : Type} {d : Dt α} {nouts order : Nat} (h : Complete d nouts order) {i : Nat} (hi : i < nouts) :
    ∃ e, d.map[i]? = some ((i, []), e) := by
  have h1 := filter_prefix (r := fun p q : SIdx × α => Less p.1 q.1) (p := fun p => degree p.1.2 == 0) (fun a b hab hb => by
    rw [beq_iff_eq] at hb ⊢
    rcases hab with hab | hab
    · omega
    · rw [hab.1]; exact hb) h.sorted
  have h2 := h.zero_keys
  have h3 := congrArg (fun l => l[i]?) h2
  simp only [List.getElem?_map, List.getElem?_range hi, Option.map_some] at h3
  cases h4 : (d.map.filter fun p => degree p.1.2 == 0)[i]? with
  | none => rw [h4] at h3; cases h3
  | some q =>
    rw [h4, Option.map_some, Option.some.injEq] at h3
    refine ⟨q.2, ?_⟩
    rw [h1, List.getElem?_append_left (List.getElem?_eq_some_iff.1 h4).1, h4, ← h3]

end Heyoka.Sym

import Verif.Util.Res
import Mathlib.Data.List.Basic

/-!
# Loops over outcomes

Helpers for transcribing `for` loops whose body may throw or be undefined.
-/

namespace Heyoka

variable {α β σ : Type*}

/-- Apply an operation which may fail to all the elements of a list, in order. -/
def mapLanes (f : α → Res β) : List α → Res (List β)
  | [] => .ok []
  | a :: as => (f a).bind fun b => (mapLanes f as).bind fun bs => .ok (b :: bs)

/-- `for i in is: s = f(i, s)`. -/
def forRes (is : List α) (f : α → σ → Res σ) (s : σ) : Res σ :=
  match is with
  | [] => .ok s
  | i :: is => (f i s).bind fun s' => forRes is f s'

theorem mapLanes_ok {f : α → Res β} {g : α → β} (h : ∀ a, f a = .ok (g a)) :
    ∀ as : List α, mapLanes f as = .ok (as.map g) := by
  intro as
  induction as with
  | nil => rfl
  | cons a as ih => simp [mapLanes, h, ih]

theorem mapLanes_ok_mem {f : α → Res β} {g : α → β} : ∀ {as : List α},
    (∀ a ∈ as, f a = .ok (g a)) → mapLanes f as = .ok (as.map g) := by
  intro as
  induction as with
  | nil => intro _; rfl
  | cons a as ih =>
    intro h
    simp [mapLanes, h a List.mem_cons_self, ih fun b hb => h b (List.mem_cons_of_mem _ hb)]

theorem mapLanes_congr {f g : α → Res β} : ∀ {as : List α},
    (∀ a ∈ as, f a = g a) → mapLanes f as = mapLanes g as := by
  intro as
  induction as with
  | nil => intro _; rfl
  | cons a as ih =>
    intro h
    simp only [mapLanes, h a List.mem_cons_self, ih fun b hb => h b (List.mem_cons_of_mem _ hb)]

theorem mapLanes_map {γ : Type*} (f : β → Res γ) (g : α → β) : ∀ as : List α,
    mapLanes f (as.map g) = mapLanes (fun a => f (g a)) as := by
  intro as
  induction as with
  | nil => rfl
  | cons a as ih => simp [mapLanes, ih]

/-- A loop whose body never fails is a fold. -/
theorem forRes_ok {f : α → σ → Res σ} {g : σ → α → σ} : ∀ (is : List α) (s : σ),
    (∀ i ∈ is, ∀ s, f i s = .ok (g s i)) → forRes is f s = .ok (is.foldl g s) := by
  intro is
  induction is with
  | nil => intro s _; rfl
  | cons i is ih =>
    intro s h
    simp only [forRes, h i List.mem_cons_self, Res.bind_ok, List.foldl_cons]
    exact ih _ fun j hj => h j (List.mem_cons_of_mem _ hj)

theorem forRes_append (f : α → σ → Res σ) : ∀ (is js : List α) (s : σ),
    forRes (is ++ js) f s = (forRes is f s).bind fun s' => forRes js f s' := by
  intro is
  induction is with
  | nil => intro js s; rfl
  | cons i is ih =>
    intro js s
    simp only [List.cons_append, forRes]
    cases f i s <;> simp [ih]

end Heyoka

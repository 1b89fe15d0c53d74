import Verif.Util.Res

/-!
# Tensors of derivatives

Model of `src/dtens.cpp`: the comparison of derivative indices, lookup and ranges. The
derivatives themselves are values of an arbitrary type: only the indices matter here.

Simplification: 32-bit integers are natural numbers; the overflow check of the total degree is
modelled. Iterators are positions in the underlying sorted vector of the flat map, the position
of `end()` being its length.
-/

namespace Heyoka.Dtens

/-- `dtens_sv_idx_t`, include/heyoka/expression.hpp: component and list of
(argument index, order). -/
abbrev SIdx := Nat × List (Nat × Nat)

/-- `dtens::impl`: the flat map and the number of differentiation arguments. -/
structure Dt (α : Type) where
  map : List (SIdx × α)
  nargs : Nat

/-- `sv_sanity_check()`, src/expression_diff.cpp:1243-1266, loop over the elements following
the first one. -/
def sanityLoop (prev : Nat) : List (Nat × Nat) → Bool
  | [] => true
  | (i, n) :: t => if ¬ (i > prev) then false else if n = 0 then false else sanityLoop i t

/-- `sv_sanity_check()`, src/expression_diff.cpp:1243-1266. -/
def sanityCheck (v : SIdx) : Bool :=
  match v.2 with
  | [] => true
  | (i, n) :: t => if n = 0 then false else sanityLoop i t

/-- The accumulation of the total degree with safe 32-bit integers, src/dtens.cpp:49-60:
overflow throws. -/
def degLoop (acc : Nat) : List (Nat × Nat) → Res Nat
  | [] => .ok acc
  | p :: t => if acc + p.2 < 2 ^ 32 then degLoop (acc + p.2) t else .throw

/-- The loop over the (index, order) pairs, src/dtens.cpp:84-106. -/
def cmpLoop : List (Nat × Nat) → List (Nat × Nat) → Bool
  | (i1, n1) :: t1, (i2, n2) :: t2 =>
    if i2 > i1 then true
    else if i1 > i2 then false
    else if n1 > n2 then true
    else if n2 > n1 then false
    else cmpLoop t1 t2
  | _, _ => false

/-- `dtens_sv_idx_cmp_impl()`, src/dtens.cpp:42-119. -/
def cmp (v1 v2 : SIdx) : Res Bool :=
  (degLoop 0 v1.2).bind fun deg1 =>
  (degLoop 0 v2.2).bind fun deg2 =>
  if deg1 < deg2 then .ok true
  else if deg1 > deg2 then .ok false
  else if v1.1 < v2.1 then .ok true
  else if v1.1 > v2.1 then .ok false
  else .ok (cmpLoop v1.2 v2.2)

section
variable {α : Type}

/-- `std::lower_bound()` over the keys. Reading past the end is undefined behaviour (it does not
happen). -/
def lbLoop (m : List (SIdx × α)) (v : SIdx) (first count : Nat) : Res Nat :=
  if h : count = 0 then .ok first
  else
    let step := count / 2
    match m[first + step]? with
    | none => .ub
    | some p => (cmp p.1 v).bind fun c =>
      if c then lbLoop m v (first + step + 1) (count - (step + 1))
      else lbLoop m v first step
termination_by count
decreasing_by all_goals omega

/-- `flat_map::find()`: the lower bound, unless the key compares less than the element there. -/
def mapFind (m : List (SIdx × α)) (v : SIdx) : Res Nat :=
  (lbLoop m v 0 m.length).bind fun i =>
    match m[i]? with
    | none => .ok m.length
    | some p => (cmp v p.1).bind fun c => if c then .ok m.length else .ok i

/-- `dtens::get_order()`, src/dtens.cpp:306-341. The assertions of the debug builds are left out. -/
def Dt.getOrder (d : Dt α) : Nat :=
  match d.map.getLast? with
  | none => 0
  | some p =>
    match p.1.2.getLast? with
    | none => 0
    | some q => q.2

/-- The conversion to sparse format in `dtens::find()`, src/dtens.cpp:358-364. -/
def sparse (i : Nat) : List Nat → List (Nat × Nat)
  | [] => []
  | n :: t => if n ≠ 0 then (i, n) :: sparse (i + 1) t else sparse (i + 1) t

/-- `dtens::find(const v_idx_t &)`, src/dtens.cpp:343-366. -/
def Dt.findDense (d : Dt α) : List Nat → Res Nat
  | [] => .ok d.map.length
  | c :: orders =>
    if orders.length ≠ d.nargs then .ok d.map.length
    else mapFind d.map (c, sparse 0 orders)

/-- `dtens::find(const sv_idx_t &)`, src/dtens.cpp:368-380. -/
def Dt.find (d : Dt α) (v : SIdx) : Res Nat :=
  if !sanityCheck v then .ok d.map.length else mapFind d.map v

/-- `dtens::index_impl()`, src/dtens.cpp:382-393, on the result of a lookup: `end()` throws. -/
def Dt.deref (d : Dt α) (it : Res Nat) : Res α :=
  it.bind fun i =>
    match d.map[i]? with
    | none => .throw
    | some p => .ok p.2

/-- `dtens::operator[](const v_idx_t &)`, src/dtens.cpp:395-398. -/
def Dt.atDense (d : Dt α) (v : List Nat) : Res α := d.deref (d.findDense v)

/-- `dtens::operator[](const sv_idx_t &)`, src/dtens.cpp:400-403. -/
def Dt.at (d : Dt α) (v : SIdx) : Res α := d.deref (d.find v)

/-- `dtens::index_of()`, src/dtens.cpp:405-418. -/
def Dt.indexOf (d : Dt α) (v : SIdx) : Res Nat := d.find v

/-- `dtens::get_nouts()`, src/dtens.cpp:642-665. -/
def Dt.getNouts (d : Dt α) : Res Nat :=
  if d.map.isEmpty then .ok 0
  else mapFind d.map (0, [(0, 1)])

/-- Iteration over a range of positions: walking from a position to an earlier one is undefined
behaviour. -/
def Dt.range (d : Dt α) (be : Nat × Nat) : Res (List (SIdx × α)) :=
  if be.1 ≤ be.2 then .ok ((d.map.drop be.1).take (be.2 - be.1)) else .ub

/-- The position one past a position, if it is not the end: src/dtens.cpp:474-478, 534-538. -/
def Dt.past (d : Dt α) (e : Nat) : Nat := if e ≠ d.map.length then e + 1 else e

/-- The index vector for an argument and an order: src/dtens.cpp:431-434, 458-462. The index of
the last argument is computed with 32-bit integers. -/
def single (arg order : Nat) : List (Nat × Nat) := if order ≠ 0 then [(arg, order)] else []

/-- The index of the last argument, as a 32-bit integer. -/
def Dt.lastArg (d : Dt α) : Nat := (d.nargs + (2 ^ 32 - 1)) % 2 ^ 32

/-- `dtens::get_derivatives(order)`, src/dtens.cpp:421-481. -/
def Dt.getDerivatives (d : Dt α) (order : Nat) : Res (Nat × Nat) :=
  if d.map.isEmpty then .ok (0, d.map.length)
  else
    (mapFind d.map (0, single 0 order)).bind fun b =>
    d.getNouts.bind fun nouts =>
    (mapFind d.map (nouts - 1, single d.lastArg order)).bind fun e =>
    .ok (b, d.past e)

/-- `dtens::get_derivatives(component, order)`, src/dtens.cpp:484-541. -/
def Dt.getDerivativesComp (d : Dt α) (component order : Nat) : Res (Nat × Nat) :=
  if d.map.isEmpty then .ok (0, d.map.length)
  else
    (mapFind d.map (component, single 0 order)).bind fun b =>
    (mapFind d.map (component, single d.lastArg order)).bind fun e =>
    .ok (b, d.past e)

/-- The derivatives in a range. -/
def Dt.values (d : Dt α) (r : Res (Nat × Nat)) : Res (List α) :=
  r.bind fun be => (d.range be).bind fun l => .ok (l.map (·.2))

/-- `dtens::get_gradient()`, src/dtens.cpp:543-562. -/
def Dt.getGradient (d : Dt α) : Res (List α) :=
  d.getNouts.bind fun nouts =>
  if nouts ≠ 1 then .throw
  else if d.getOrder = 0 then .throw
  else d.values (d.getDerivativesComp 0 1)

/-- `dtens::get_jacobian()`, src/dtens.cpp:564-583. -/
def Dt.getJacobian (d : Dt α) : Res (List α) :=
  d.getNouts.bind fun nouts =>
  if nouts = 0 then .throw
  else if d.getOrder = 0 then .throw
  else d.values (d.getDerivatives 1)

/-- `dtens::get_hessian()`, src/dtens.cpp:585-607. -/
def Dt.getHessian (d : Dt α) (component : Nat) : Res (List α) :=
  d.getNouts.bind fun nouts =>
  if component ≥ nouts then .throw
  else if d.getOrder < 2 then .throw
  else d.values (d.getDerivativesComp component 2)

end

end Heyoka.Dtens

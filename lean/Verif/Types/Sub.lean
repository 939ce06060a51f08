import Verif.Types.Model
/-!
# C17: the subtype relation and the common type

Arrays, sets and scalars of every base type except tuples and records, whose fields are compared by the same functions.
-/
namespace MZ
namespace Types

/-- lib/type.cpp 20–54 `btSubtype`. The branches for tuples and records (22–41) look up the fields in the environment; only equal
type ids are modelled here. -/
def btSub (strict : Bool) (t0 t1 : Ty) : Bool :=
  if t0.bt = t1.bt ∧ t0.structBT = true then t0.typeId == t1.typeId
  else if t0.bt = t1.bt ∧ (strict = false ∨ t0.dim ≠ 0 ∨ t0.typeId = t1.typeId ∨ t1.typeId = 0) then true
  else match t0.bt with
    | .bool => t1.bt == .int || t1.bt == .float
    | .int => t1.bt == .float
    | .bot => true
    | _ => false

/-- `ot() == OT_PRESENT || ot() == t.ot()`. -/
def optOk (a b : Ty) : Bool := !a.opt || a.opt == b.opt

/-- type.hh 335–372 `isSubtypeOf`. -/
def isSub (strict : Bool) (a t : Ty) : Bool :=
  if a.dim = 0 ∧ t.dim ≠ 0 ∧ a.set = true ∧ t.set = false ∧ a.bt ≠ .float ∧
      (a.bt = .bot ∨ btSub false a t = true ∨ t.bt = .top) ∧ a.var = false ∧ optOk a t = true then true
  else if a.dim ≠ t.dim ∧ (a.dim = 0 ∨ t.dim ≠ -1) then false
  else if a.any then t.any
  else if t.any then true
  else if a.var = t.var ∧ btSub strict a t = true ∧ a.set = t.set then optOk a t
  else if a.var = false ∧ btSub strict a t = true ∧ a.set = t.set then optOk a t
  else if a.var = false ∧ t.bt = .bot then true
  else if (a.var = t.var ∨ a.var = false) ∧ a.bt = .bot ∧ (a.set = t.set ∨ a.set = false) then optOk a t
  else t.bt == .top && optOk a t && (!t.set || a.set == t.set) && (!a.var || t.var)

/-- The tables of array types in the environment: `getArrayEnum` and `registerArrayEnum`. -/
structure Tab where
  arr : Nat → List Nat
  reg : List Nat → Nat

/-- The default constructor `Type()` (type.hh 76–88). -/
def unknown : Ty := ⟨.unknown, false, false, false, false, false, 0, 0⟩

/-- `Type::bot()`. -/
def bot : Ty := ⟨.bot, false, false, false, false, false, 0, 0⟩

/-- type.cpp 206–219 `elemType`. -/
def elemType (T : Tab) (t : Ty) : Ty :=
  if t.dim = 0 then t
  else if t.typeId = 0 then { t with typeId := 0, dim := 0 }
  else { t with dim := 0, typeId := (T.arr t.typeId).getLastD 0 }

/-- `arrayEnumIds.back() = x`. -/
def setLast (l : List Nat) (x : Nat) : List Nat := l.dropLast ++ [x]

/-- 221–246 `arrType`, for an index type `parint(d)` (whose type id is 0) and an element type of dimension 0. -/
def arrType (T : Tab) (d : Int) (e : Ty) : Ty :=
  if e.typeId = 0 then { e with typeId := 0, dim := d }
  else { e with dim := d, typeId := T.reg (setLast (List.replicate (d + 1).toNat 0) e.typeId) }

/-- 325–334: the type id, `var`, `opt` and `cv` of the common type. -/
def merge (t1 t2 c : Ty) : Ty :=
  { c with
    typeId := if t1.typeId ≠ t2.typeId ∧ t1.bt ≠ .bot ∧ t2.bt ≠ .bot then 0 else c.typeId
    var := if t1.var ≠ t2.var then true else c.var
    opt := if t1.opt ≠ t2.opt then true else c.opt
    cv := t1.cv || t2.cv }

/-- 335–338: there are no variable optional sets. -/
def finish (t1 t2 c : Ty) : Ty :=
  if (merge t1 t2 c).var && (merge t1 t2 c).opt && (merge t1 t2 c).set then unknown else merge t1 t2 c

/-- 316–344: the end of `commonType`, for scalars and sets. -/
def commonBase (strict : Bool) (t1 t2 : Ty) : Ty :=
  if btSub strict t2 t1 then finish t1 t2 t1
  else if btSub strict t1 t2 then finish t1 t2 t2
  else unknown

/-- 248–262 and the tests in 264–267 for types of dimension 0 (what the recursive call of line 273 does on element types). -/
def commonElem (strict : Bool) (t1 t2 : Ty) : Ty :=
  if (t1.eq t2 && t1.typeId == t2.typeId) || t2.eq bot then { t1 with cv := t1.cv || t2.cv }
  else if t1.eq bot then t2
  else if t1.bt = .unknown ∨ t2.bt = .unknown ∨ (t1.set ≠ t2.set ∧ t1.bt ≠ .bot ∧ t2.bt ≠ .bot) then unknown
  else commonBase strict t1 t2

/-- 276–300: the array type over the common element type. -/
def commonArr (T : Tab) (t1 t2 c : Ty) : Ty :=
  if c.bt = .unknown then unknown
  else if t1.typeId ≠ 0 ∧ t2.typeId ≠ 0 then
    let ids := (List.zip (T.arr t1.typeId) (T.arr t2.typeId)).map fun p => if p.1 = p.2 then p.1 else 0
    { c with dim := t1.dim, typeId := T.reg (setLast ids c.typeId) }
  else arrType T t1.dim c

/-- 256–262: a set next to a one-dimensional array becomes an array. -/
def setToArr (T : Tab) (t1 t2 : Ty) : Ty :=
  if t1.dim = 0 ∧ t1.set = true ∧ t2.dim = 1 then arrType T 1 { t1 with set := false } else t1

/-- type.cpp 248–345 `commonType`, without the branches for tuples and records. -/
def commonType (T : Tab) (strict : Bool) (t1 t2 : Ty) : Ty :=
  if (t1.eq t2 && t1.typeId == t2.typeId) || t2.eq bot then { t1 with cv := t1.cv || t2.cv }
  else if t1.eq bot then t2
  else
    let u1 := setToArr T t1 t2
    let u2 := setToArr T t2 t1
    if u1.bt = .unknown ∨ u2.bt = .unknown ∨ u1.dim ≠ u2.dim ∨ (u1.set ≠ u2.set ∧ u1.bt ≠ .bot ∧ u2.bt ≠ .bot) then unknown
    else if u1.dim ≠ 0 then commonArr T u1 u2 (commonElem strict (elemType T u1) (elemType T u2))
    else commonBase strict u1 u2

end Types
end MZ

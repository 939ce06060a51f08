import Verif.Ranges.Model
/-!
# Model: domain tightening (include/minizinc/flatten_internal.hh, `LinearTraits<IntLit>`)

Domains are range sequences with extended-integer ends (`Verif/Ranges/Model.lean`); the constant
is an `IntVal`, so that its arithmetic (`v -= 1`, `v += 1`) can raise an error.
-/
namespace MZ
namespace Domain

/-- The comparison operators of `BinOpType` handled here (ast.hh `BOT_*`). -/
inductive Cmp | le | lq | gr | gq | nq | eq
deriving DecidableEq, Repr

/-- The extended integer an `IntVal` stands for (ill-formed infinities, which no function of
the model creates from well-formed ones, are mapped to `posInf`). -/
def ext (v : IntVal) : Ext := v.denote.getD .posInf

/-- iter.hh 149–156 `Bounded::maxiter` / `miniter`, then `IntSetVal::ai`. -/
def upTo (dom : List Range) (v : IntVal) : List Range := Ranges.bounded none (some (ext v)) dom
def downTo (dom : List Range) (v : IntVal) : List Range := Ranges.bounded (some (ext v)) none dom

/-- flatten_internal.hh 723–757 `limitDomain`. `BOT_EQ` runs into the default case (an
assertion): `ub`. `Diff` cannot diverge (`C06_diff`); its `none` is mapped to `ub`. -/
def limitDomain (bot : Cmp) (dom : List Range) (v : IntVal) : Res (List Range) :=
  match bot with
  | .le => do
    let v ← v.sub (.fin 1)
    return upTo dom v
  | .lq => .ok (upTo dom v)
  | .gr => do
    let v ← v.add (.fin 1)
    return downTo dom v
  | .gq => .ok (downTo dom v)
  | .nq =>
    match Ranges.diff dom (Ranges.const (ext v) (ext v)) with
    | some d => .ok d
    | none => .ub
  | .eq => .ub

/-- flatten_internal.hh 758–763 `intersectDomain(dom,v0,v1)`. -/
def intersectInterval (dom : List Range) (v0 v1 : Ext) : List Range :=
  Ranges.inter dom (Ranges.const v0 v1)

/-- flatten_internal.hh 764–769 `intersectDomain(dom0,dom1)`. -/
def intersect (d0 d1 : List Range) : List Range := Ranges.inter d0 d1

/-- flatten_internal.hh 719–721 `domainIntersects`. -/
def domainIntersects (dom : List Range) (v0 v1 : Ext) : Bool :=
  decide (v1 < v0) ||
    match IntSet.min? dom, IntSet.max? dom with
    | some l, some u => decide (l ≤ v1) && decide (v0 ≤ u)
    | _, _ => false

end Domain
end MZ

import Verif.ExprEq.Props
/-!
# Hash values of expressions

The comparison of hash values in `Expression::equal` (ast.hpp 36–38) is only a shortcut if the
hash function does not separate expressions that are equal part by part ("the equal=>same-hash
invariant", lib/ast.cpp 924–927).
-/
namespace MZ
namespace ExprEq

/-- The hash functions of the standard library that are used: of integers (`std::hash` of `int`,
`unsigned int` and `long long int`), Booleans, strings (`ASTString::hash`), and doubles. The
standard requires the hash value of a double to depend on its value only, so `0.0` and `-0.0`
have the same. -/
structure HF where
  int : Int → Nat
  bool : Bool → Nat
  str : List Nat → Nat
  flt : Ext → Nat

/-- ast.hh 385 `combineHash` (64-bit arithmetic). -/
@[irreducible] def comb (seed h : Nat) : Nat :=
  seed ^^^ ((h + 0x9e3779b9 + (seed * 64) % 2 ^ 64 + seed / 4) % 2 ^ 64)

/-- Several calls of `combineHash`. -/
def combs (seed : Nat) (hs : List Nat) : Nat := hs.foldl comb seed

/-- ast.hh 393 `initHash`; the identifiers of kinds of expressions begin at 4 (gc.hh 60). -/
def initH (e : E) : Nat := comb 0 (eid e + 4).toNat

/-- values.hh 229–232 `IntVal::hash`: the hash of `_v`, which is 1 or -1 for an infinity. -/
def hashExt (H : HF) : Ext → Nat
  | .negInf => H.int (-1)
  | .fin n => H.int n
  | .posInf => H.int 1

/-- ast.hh 613–619 `Expression::hash`. -/
def hashOf (H : HF) : E → Nat
  | .nul => 0
  | .intU v => H.int v
  | .fltU f => H.flt f.val
  | .int hd _ => hd.h
  | .flt hd _ => hd.h
  | .setI hd _ => hd.h
  | .setF hd _ => hd.h
  | .setV hd _ => hd.h
  | .bool hd _ => hd.h
  | .str hd _ => hd.h
  | .id hd _ _ _ => hd.h
  | .anon hd _ => hd.h
  | .arr hd _ _ => hd.h
  | .acc hd _ _ => hd.h
  | .fld hd _ _ => hd.h
  | .comp hd _ _ _ _ => hd.h
  | .ite hd _ _ => hd.h
  | .bin hd _ _ _ => hd.h
  | .un hd _ _ => hd.h
  | .call hd _ _ _ => hd.h
  | .vd hd _ _ _ => hd.h
  | .lets hd _ _ => hd.h
  | .ti hd _ _ => hd.h
  | .tiid hd _ _ => hd.h

/-- ast.cpp 559–562: the positions and hash values of the stored elements, last one first. -/
def arrHashes (H : HF) (es : List E) : List Nat :=
  (es.zipIdx.reverse.map fun p => [H.int p.2, hashOf H p.1]).flatten

/-- The `rehash` functions: what a node computes as its hash value from its parts
(ast.cpp 301–379, 548–571, 577–581, 641–654, 690–713, 901–906, 922–936, 1056–1072, 1105–1114).
`off` is the number of elements of an array literal that are not stored because the literal is
compressed (C18). Simplification: slices of array literals (556–557) are left out. -/
def rehash (H : HF) (off : Nat) : E → Nat
  | .int hd v => combs (initH (.int hd v)) [hashExt H v]
  | .flt hd f => combs (initH (.flt hd f)) [H.flt f.val]
  | .setI hd s => combs (initH (.setI hd s)) (s.map fun r => [hashExt H r.lo, hashExt H r.hi]).flatten
  | .setF hd s => combs (initH (.setF hd s)) (s.map fun r => [H.flt r.1.val, H.flt r.2.val]).flatten
  | .setV hd v => combs (initH (.setV hd v)) (v.reverse.map (hashOf H))
  | .bool hd b => combs (initH (.bool hd b)) [H.bool b]
  | .str hd s => combs (initH (.str hd s)) [H.str s]
  | .id hd d n i => combs (initH (.id hd d n i)) [if i = -1 then H.str n else H.int i]
  | .anon hd a => initH (.anon hd a)
  | .arr hd d es => combs (initH (.arr hd d es)) (d.map H.int ++ arrHashes H (es.drop off))
  | .acc hd v x =>
    combs (initH (.acc hd v x)) ([hashOf H v, H.int x.length] ++ x.reverse.map (hashOf H))
  | .fld hd v f => combs (initH (.fld hd v f)) [hashOf H v, hashOf H f]
  | .comp hd s e g x =>
    combs (initH (.comp hd s e g x)) ([H.int s.toNat, hashOf H e, H.int x.length] ++
      x.reverse.map (fun n : Nat => H.int n) ++ [H.int g.length] ++ g.reverse.map (hashOf H))
  | .ite hd c e =>
    combs (initH (.ite hd c e)) ([H.int c.length] ++ c.reverse.map (hashOf H) ++ [hashOf H e])
  | .bin hd o l r => combs (initH (.bin hd o l r)) [H.int o, hashOf H l, hashOf H r]
  | .un hd o e => combs (initH (.un hd o e)) [H.int o, hashOf H e]
  | .call hd n d a =>
    combs (initH (.call hd n d a)) ([H.str n, H.int a.length] ++ a.map (hashOf H))
  | .vd hd t i e => combs (initH (.vd hd t i e)) [hashOf H t, hashOf H i, hashOf H e]
  | .lets hd d b =>
    combs (initH (.lets hd d b)) ([hashOf H b, H.int d.length] ++ d.reverse.map (hashOf H))
  | .ti hd r d =>
    combs (initH (.ti hd r d)) ([H.int r.length] ++ r.reverse.map (hashOf H) ++ [hashOf H d])
  | .tiid hd a n => combs (initH (.tiid hd a n)) [H.str n]
  | .nul => 0
  | .intU v => H.int v
  | .fltU f => H.flt f.val

/-- The same node with its stored hash value replaced. -/
def setHash (h : Nat) : E → E
  | .int hd v => .int ⟨hd.ty, h⟩ v
  | .flt hd f => .flt ⟨hd.ty, h⟩ f
  | .setI hd s => .setI ⟨hd.ty, h⟩ s
  | .setF hd s => .setF ⟨hd.ty, h⟩ s
  | .setV hd v => .setV ⟨hd.ty, h⟩ v
  | .bool hd b => .bool ⟨hd.ty, h⟩ b
  | .str hd s => .str ⟨hd.ty, h⟩ s
  | .id hd d n i => .id ⟨hd.ty, h⟩ d n i
  | .anon hd a => .anon ⟨hd.ty, h⟩ a
  | .arr hd d es => .arr ⟨hd.ty, h⟩ d es
  | .acc hd v x => .acc ⟨hd.ty, h⟩ v x
  | .fld hd v f => .fld ⟨hd.ty, h⟩ v f
  | .comp hd s e g x => .comp ⟨hd.ty, h⟩ s e g x
  | .ite hd c e => .ite ⟨hd.ty, h⟩ c e
  | .bin hd o l r => .bin ⟨hd.ty, h⟩ o l r
  | .un hd o e => .un ⟨hd.ty, h⟩ o e
  | .call hd n d a => .call ⟨hd.ty, h⟩ n d a
  | .vd hd t i e => .vd ⟨hd.ty, h⟩ t i e
  | .lets hd d b => .lets ⟨hd.ty, h⟩ d b
  | .ti hd r d => .ti ⟨hd.ty, h⟩ r d
  | .tiid hd a n => .tiid ⟨hd.ty, h⟩ a n
  | e => e

theorem hdEq_h {h k : Hd} (e : hdEq h k = true) : h.h = k.h := by
  simp [hdEq] at e; exact e.2

theorem equal_hashOf {H : HF} {flat : Nat → Option Nat} {a b : E} (h : equal flat a b = true) :
    hashOf H a = hashOf H b := by
  cases a <;> cases b <;> simp [equal] at h <;> simp only [hashOf] <;> first
    | exact hdEq_h h.1
    | simp [h]

theorem equalL_hashOf {H : HF} {flat : Nat → Option Nat} : ∀ {a b : List E},
    equalL flat a b = true → a.map (hashOf H) = b.map (hashOf H)
  | [], [], _ => rfl
  | [], _ :: _, h => by simp [equalL] at h
  | _ :: _, [], h => by simp [equalL] at h
  | a :: as, b :: bs, h => by
    simp [equalL] at h
    simp [equal_hashOf h.1, equalL_hashOf h.2]

theorem arrHashes_eq {H : HF} {flat : Nat → Option Nat} {a b : List E} (off : Nat)
    (h : equalL flat a b = true) : arrHashes H (a.drop off) = arrHashes H (b.drop off) := by
  have h1 : ∀ es : List E, arrHashes H es =
      ((es.map (hashOf H)).zipIdx.reverse.map fun p => [H.int p.2, p.1]).flatten := by
    intro es
    unfold arrHashes
    rw [← List.map_fst_zip (l₁ := es) (l₂ := List.range es.length) (by simp)]
    simp [List.zipIdx_map, Function.comp_def]
  rw [h1, h1, List.map_drop, List.map_drop, equalL_hashOf h]

theorem reverse_hashOf {H : HF} {flat : Nat → Option Nat} {a b : List E}
    (h : equalL flat a b = true) : a.reverse.map (hashOf H) = b.reverse.map (hashOf H) := by
  rw [List.map_reverse, List.map_reverse, equalL_hashOf h]

/-- **C66, hash values do not separate equal expressions.** If two nodes (other than identifiers,
and type-inst identifiers, which are equal only if they are one node) are of the same type and kind and equal part by part, they compute the same hash value; so the
comparison of up-to-date hash values in `Expression::equal` never changes its answer. For array
literals the same number of elements must be stored. -/
theorem _root_.MZ.C66_hash (H : HF) (flat : Nat → Option Nat) (p : List Nat → Int → Bool) (off : Nat)
    (a b : E) (hid : eid a ≠ 5 ∧ eid a ≠ 18) (wa : Wf p a) (wb : Wf p b)
    (h : equal flat (setHash 0 a) (setHash 0 b) = true) : rehash H off a = rehash H off b := by
  cases a <;> cases b <;> simp [setHash, equal] at h <;> simp only [rehash, initH, eid]
  case intU.intU => rw [h]
  case fltU.fltU => rw [h]
  case int.int => rw [h.2]
  case flt.flt => rw [h.2]
  case setI.setI => rw [rangesEqual_iff] at h; rw [h.2]
  case setF.setF hd s hd' t =>
    rw [fltRangesEq_iff] at h
    have := congrArg (List.map fun r : Ext × Ext => [H.flt r.1, H.flt r.2]) h.2
    rw [List.map_map, List.map_map] at this
    exact congrArg (fun l => combs (comb 0 _) (List.flatten l)) this
  case setV.setV => rw [reverse_hashOf h.2]
  case bool.bool => rw [h.2]
  case str.str => rw [h.2]
  case id.id => simp [eid] at hid
  case tiid.tiid => simp [eid] at hid
  case arr.arr => rw [h.2.1, arrHashes_eq off h.2.2]
  case acc.acc => rw [equal_hashOf h.2.1, equalL_length h.2.2, reverse_hashOf h.2.2]
  case fld.fld => rw [equal_hashOf h.2.1, equal_hashOf h.2.2]
  case comp.comp =>
    have wa3 := wa.2.2
    rw [equalL_length h.2.2.2.1] at wa3
    rw [h.2.1, equal_hashOf h.2.2.1, reverse_hashOf h.2.2.2.1, equalL_length h.2.2.2.1,
      gIndex_eq wa3 wb.2.2 h.2.2.2.2]
  case ite.ite => rw [equal_hashOf h.2.2, equalL_length h.2.1, reverse_hashOf h.2.1]
  case bin.bin => rw [h.2.1, equal_hashOf h.2.2.1, equal_hashOf h.2.2.2]
  case un.un => rw [h.2.1, equal_hashOf h.2.2]
  case call.call => rw [h.2.1, equalL_length h.2.2.2, equalL_hashOf h.2.2.2]
  case vd.vd => rw [equal_hashOf h.2.1, equal_hashOf h.2.2.1, equal_hashOf h.2.2.2]
  case lets.lets => rw [equal_hashOf h.2.1, equalL_length h.2.2, reverse_hashOf h.2.2]
  case ti.ti => rw [equal_hashOf h.2.2, equalL_length h.2.1, reverse_hashOf h.2.1]

/-- Two different identifiers of the same variable of the flat model are equal part by part, but
their hash values differ (for a hash function that separates their names), so `Expression::equal`
says they are different; the same holds for two arrays with equal elements of which one is
compressed. -/
theorem _root_.MZ.C66_hash_fails (H : HF) (flat : Nat → Option Nat) (hf : flat 1 = some 7 ∧ flat 2 = some 7)
    (a b : E) (ha : a = E.id ⟨0, 0⟩ (some 1) [1] (-1)) (hb : b = E.id ⟨0, 0⟩ (some 2) [2] (-1))
    (hs : rehash H 0 a ≠ rehash H 0 b) :
    equal flat (setHash 0 a) (setHash 0 b) = true ∧
      equal flat (setHash (rehash H 0 a) a) (setHash (rehash H 0 b) b) = false := by
  generalize rehash H 0 a = x at *
  generalize rehash H 0 b = y at *
  subst ha hb
  refine ⟨by simp [setHash, equal, hdEq, idEq, hf], ?_⟩
  have : (x == y) = false := by simpa using hs
  simp only [setHash, equal, hdEq, this, Bool.and_false, Bool.false_and]

/-- There are hash functions that separate the two identifiers. -/
example : ∃ H : HF, rehash H 0 (E.id ⟨0, 0⟩ (some 1) [1] (-1)) ≠
    rehash H 0 (E.id ⟨0, 0⟩ (some 2) [2] (-1)) := by
  refine ⟨⟨fun _ => 0, fun _ => 0, fun s => s.headD 0, fun _ => 0⟩, ?_⟩
  simp only [rehash, initH, eid, combs, List.foldl_cons, List.foldl_nil]
  unfold comb
  decide +kernel

/-- **C66, a hash table finds equal keys**: equal expressions have the same stored hash value, as
`std::unordered_map` requires of `KAHash` and `KAEq` (hash.hh 267–278). -/
theorem _root_.MZ.C66_hash_table (H : HF) (flat : Nat → Option Nat) (a b : E)
    (h : equal flat a b = true) : hashOf H a = hashOf H b := equal_hashOf h

/-- The theorem applies to `f(x + 1)`, whose parts have arbitrary hash values. -/
example (H : HF) (flat : Nat → Option Nat) (h1 h2 : Nat) :
    let x := E.id ⟨3, h1⟩ (some 1) [120] (-1)
    let s := E.bin ⟨3, h2⟩ 0 x (.intU 1)
    rehash H 0 (.call ⟨3, 5⟩ [102] (some 9) [s]) = rehash H 0 (.call ⟨3, 6⟩ [102] (some 9) [s]) :=
  C66_hash H flat (fun _ _ => true) 0 _ _ (by simp [eid]) (by simp [Wf, WfL]) (by simp [Wf, WfL])
    (by simp [setHash, equal, equalL, hdEq, idEq])

end ExprEq
end MZ

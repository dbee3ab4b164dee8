import Verif.Clauses.FVIndex

/-!
# Specification of the feature vector index
-/

namespace Verif

/-- The same literals, in another order and with sides exchanged or orientation marks changed. -/
def SameLits (C D : List OLit) : Prop :=
  ∃ E : List OLit, E.Perm D ∧
    List.Forall₂ (fun L K : OLit => L.pos = K.pos ∧ ((L.l = K.l ∧ L.r = K.r) ∨ (L.l = K.r ∧ L.r = K.l))) C E

/-- The feature vector specification writes only into the vector. -/
structure FVCollect.OK (cs : FVCollect) : Prop where
  lits : cs.feat = .collect → cs.useLit = true → 2 ≤ cs.resLen
  bound : cs.feat = .collect → ∀ i r, cs.resIndex i = some r → r < cs.resLen

/-- The states of one index: the static array, the tree, the addresses of the stored clauses and the literals of all clauses.  Vectors
for other purposes are computed with the same static array, and clauses may be rearranged while they are stored
(`FVIndexInsert` itself sorts the literals, CLAUSES/ccl_fcvindexing.c:411). -/
inductive FVReach (cs : FVCollect) (perm : Option (List Nat)) : Arr → FVTree Nat → List Nat → (Nat → List OLit) → Prop
  | init (H : Nat → List OLit) : FVReach cs perm (fun _ => 0) .alloc [] H
  | vector {full : Arr} {T : FVTree Nat} {S : List Nat} {H : Nat → List OLit} (cs' : FVCollect) (perm' : Option (List Nat))
      (C : List Lit) (h : FVReach cs perm full T S H) : FVReach cs perm (fvVector cs' perm' full C).2 T S H
  | edit {full : Arr} {T : FVTree Nat} {S : List Nat} {H H' : Nat → List OLit} (h : FVReach cs perm full T S H)
      (he : ∀ a ∈ S, SameLits (H a) (H' a)) : FVReach cs perm full T S H'
  | insert {full full' : Arr} {T T' : FVTree Nat} {S : List Nat} {H : Nat → List OLit} {a : Nat} {v : List Nat}
      (h : FVReach cs perm full T S H) (ha : a ∉ S) (hv : fvVector cs perm full (OLit.plain (H a)) = (some v, full'))
      (hi : fvInsert a v T = some T') : FVReach cs perm full' T' (a :: S) H
  | delete {full full' : Arr} {T T' : FVTree Nat} {S : List Nat} {H : Nat → List OLit} {a : Nat} {v : List Nat} {found : Bool}
      (h : FVReach cs perm full T S H) (ha : a ∈ S) (hv : fvVector cs perm full (OLit.plain (H a)) = (some v, full'))
      (hd : fvDelete a v T = some (T', found)) : FVReach cs perm full' T' (S.erase a) H

/-- No positive literal with identical sides. -/
def NoTrivial (D : List OLit) : Prop := ∀ L ∈ D, L.pos = true → L.l ≠ L.r

end Verif

import Verif.Text.Signature

/-!
# Identifiers of proof steps
-/

namespace Verif
namespace PclId

/-- An identifier: the numbers before the end mark `NO_PCL_ID_ELEMENT` in the array; the first one always exists (PCL2/pcl_idents.c:61-80).  Numbers are unbounded here; the code keeps them in a `long`. -/
structure Id where
  first : Nat
  more : List Nat
deriving DecidableEq

/-- All numbers of an identifier (PCL2/pcl_idents.h, `PCLIdCell`). -/
def Id.all (i : Id) : List Nat := i.first :: i.more

/-- The tokens of the scanner which matter here (INOUT/cio_scanner.h: `PosInt`, `Fullstop`); all others are `other`. -/
inductive Tok where
  | posInt (n : Nat)
  | fullstop
  | other (c : Nat)
deriving DecidableEq

/-- The loop of `PCLIdParse` (PCL2/pcl_idents.c:72-77); `none`: syntax error. -/
def parseMore : List Tok → Option (List Nat × List Tok)
  | .fullstop :: .posInt n :: ts => (parseMore ts).map fun r => (n :: r.1, r.2)
  | .fullstop :: _ => none
  | ts => some ([], ts)

/-- `PCLIdParse` (PCL2/pcl_idents.c:61-80); numbers are read without the limit of 64 bits. -/
def parseId : List Tok → Option (Id × List Tok)
  | .posInt n :: ts => (parseMore ts).map fun r => (⟨n, r.1⟩, r.2)
  | _ => none

/-- `PCLIdPrintFormatted` without `formatted` (PCL2/pcl_idents.c:95-109), as tokens. -/
def printToks (i : Id) : List Tok := .posInt i.first :: i.more.flatMap fun n => [.fullstop, .posInt n]

/-- The numbers after the first one with a separator (the loops in PCL2/pcl_idents.c:105-108 and 142-145). -/
def sepText (sep : Char) (ns : List Nat) : List Char := ns.flatMap fun n => sep :: Text.dec n

/-- `PCLIdPrintFormatted` without `formatted`, as text. -/
def printText (i : Id) : List Char := Text.dec i.first ++ sepText '.' i.more

/-- `PCLIdPrintFormatted` with `formatted` (PCL2/pcl_idents.c:104): the first number is filled up with blanks to 7 characters. -/
def printPadded (i : Id) : List Char := List.replicate (7 - (Text.dec i.first).length) ' ' ++ printText i

/-- `PCLIdPrintTSTP` (PCL2/pcl_idents.c:125-147). -/
def printTSTP (i : Id) : List Char :=
  if i.more.isEmpty then Text.dec i.first else 'p' :: 'c' :: 'l' :: 'i' :: 'd' :: (Text.dec i.first ++ sepText '_' i.more)

/-- The loop of `PCLIdCompare` (PCL2/pcl_idents.c:169-179): the first difference, with -1 at the end of an identifier. -/
def firstDiff : List Nat → List Nat → Int
  | [], [] => 0
  | a :: _, [] => (a : Int) - (-1)
  | [], b :: _ => (-1 : Int) - b
  | a :: as, b :: bs => if (a : Int) - b ≠ 0 then (a : Int) - b else firstDiff as bs

/-- `PCLIdCompare` (PCL2/pcl_idents.c:162-181): the `long` difference is cut to an `int` of 32 bits. -/
def idCompare (i j : Id) : Int := (firstDiff i.all j.all).bmod (2 ^ 32)

end PclId
end Verif

import Verif.Inout.Include

/-!
# Specification of `include`
-/

namespace Verif.Incl

/-- `d` is the directory of the file `p`: the part up to the last slash. -/
def DirOf (p d : Str) : Prop := ∃ b, p = d ++ b ∧ '/' ∉ b ∧ (d = [] ∨ d.getLast? = some '/')

/-- The file meant by `name` in a file of the directory `dir`: absolute, relative to `dir` or, if there is none, relative to the directory of the
TPTP library. -/
inductive Locates (fs : FS) (tptp : Option Str) (dir name : Str) : Str → Prop
  | absolute : name.head? = some '/' → Locates fs tptp dir name name
  | relative : name.head? ≠ some '/' → (fs (dir ++ name)).isSome = true → Locates fs tptp dir name (dir ++ name)
  | library {T} : name.head? ≠ some '/' → fs (dir ++ name) = none → tptp = some T → Locates fs tptp dir name (T ++ name)

/-- The statements with every `include` replaced by the selected ones of the file, in the order of the text, each with the mark of the watch list;
every selected name must occur.  `k`: the number of formulas of all files. -/
inductive Text (fs : FS) (tptp : Option Str) (skip : List Str) : Str → List Stmt → List (Entry × Bool) → Nat → Prop
  | nil {dir} : Text fs tptp skip dir [] [] 0
  | form {dir x w b ss L k} : Text fs tptp skip dir ss L k → Text fs tptp skip dir (.form x w b :: ss) ((⟨x, b⟩, w) :: L) (k + 1)
  | skip {dir f sel ss L k} : f ∈ skip → Text fs tptp skip dir ss L k → Text fs tptp skip dir (.incl f sel :: ss) L k
  | all {dir f p c d ss L1 k1 L k} : f ∉ skip → Locates fs tptp dir f p → fs p = some c → DirOf p d → Text fs tptp skip d c L1 k1 →
      Text fs tptp skip dir ss L k → Text fs tptp skip dir (.incl f none :: ss) (L1 ++ L) (k1 + k)
  | some {dir f l p c d ss L1 k1 L k} : f ∉ skip → Locates fs tptp dir f p → fs p = some c → DirOf p d → Text fs tptp skip d c L1 k1 →
      (∀ x ∈ l, ∃ q ∈ L1, q.1.name = x) → Text fs tptp skip dir ss L k →
      Text fs tptp skip dir (.incl f (.some l) :: ss) (L1.filter (fun q => decide (q.1.name ∈ l)) ++ L) (k1 + k)

/-- A formula that the content `ss` of a file in `dir` contributes: it is there, or contributed by an included file and selected. -/
inductive Contrib (fs : FS) (tptp : Option Str) (skip : List Str) : Str → List Stmt → Entry → Bool → Prop
  | here {dir ss x w b} : Stmt.form x w b ∈ ss → Contrib fs tptp skip dir ss ⟨x, b⟩ w
  | incl {dir ss f sel p c d e w} : Stmt.incl f sel ∈ ss → f ∉ skip → Locates fs tptp dir f p → fs p = some c → DirOf p d →
      Contrib fs tptp skip d c e w → (∀ l, sel = some l → e.name ∈ l) → Contrib fs tptp skip dir ss e w

/-- No file read contains anything but statements. -/
inductive Reached (fs : FS) (tptp : Option Str) (skip : List Str) : Str → List Stmt → Str → List Stmt → Prop
  | refl {dir ss} : Reached fs tptp skip dir ss dir ss
  | incl {dir ss f sel p c d d' c'} : Stmt.incl f sel ∈ ss → f ∉ skip → Locates fs tptp dir f p → fs p = some c → DirOf p d →
      Reached fs tptp skip d c d' c' → Reached fs tptp skip dir ss d' c'

def Clean (fs : FS) (tptp : Option Str) (skip : List Str) (dir : Str) (ss : List Stmt) : Prop :=
  ∀ d c, Reached fs tptp skip dir ss d c → Stmt.junk ∉ c

def outOf (L : List (Entry × Bool)) (k : Nat) : Out :=
  ⟨(L.filter fun q => !q.2).map (·.1), (L.filter fun q => q.2).map (·.1), k⟩

/-- Names of directories: empty or with a slash at the end. -/
def IsDir (d : Str) : Prop := d = [] ∨ d.getLast? = some '/'

/-- The text of the files of the command line. -/
inductive SpecText (fs : FS) (tptp : Option Str) : List Str → List (Entry × Bool) → Nat → Prop
  | nil : SpecText fs tptp [] [] 0
  | cons {f fl p c d L1 k1 L k} : Locates fs tptp [] f p → fs p = some c → DirOf p d → Text fs tptp [] d c L1 k1 → SpecText fs tptp fl L k →
      SpecText fs tptp (f :: fl) (L1 ++ L) (k1 + k)

end Verif.Incl
